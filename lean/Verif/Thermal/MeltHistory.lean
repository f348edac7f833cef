import Verif.Thermal.Physics
import Verif.Refinement.Forest
import Mathlib.Data.List.Infix

/-!
# C42: the marks of molten cells on an adapting mesh

`mark_has_melted` (source/ThermalPhysics.templates.hh:542-593), the addition of material (600-817) and the adaptation of the mesh
(`refine_and_transfer`, application/adamantine.hh:325-520) on the refinement tree of a coarse cell.  The transfer of the compressed vector
`_has_melted` between cells, ranks and messages is `C22`, `C41` and `C70`; here the steps are composed over a whole run.
-/

namespace Verif.Thermal.MeltHistory

/-- One of the `2^n` children of a cell. -/
abbrev Child (n : ℕ) := Fin n → Bool

/-- What is known of an active cell: no material, or material with its entry of `_has_melted`
(source/ThermalPhysics.templates.hh:481-490, one entry per locally owned cell with material). -/
abbrev Mark := Option Bool

/-- The refinement tree of a coarse cell with the marks of its active cells. -/
inductive MTree (n : ℕ)
  | leaf (d : Mark)
  | node (children : Child n → MTree n)

/-- The active cell reached from the coarse cell by the children `p`, if there is one. -/
def MTree.active {n : ℕ} : MTree n → List (Child n) → Option Mark
  | .leaf d, [] => some d
  | .leaf _, _ :: _ => none
  | .node _, [] => none
  | .node f, c :: p => (f c).active p

/-- The mesh without the marks. -/
def MTree.shape {n : ℕ} : MTree n → Refinement.Tree n
  | .leaf _ => .leaf
  | .node f => .node fun c => (f c).shape

/-- The value sent for a cell compared with 0.5, application/adamantine.hh:375-378, :388-389, :493-497: 1 or 0 for material, infinity
otherwise. -/
def flag : Mark → Bool
  | none => true
  | some b => b

open Classical in
/-- `mark_has_melted` on a cell with mean temperature `avg`, source/ThermalPhysics.templates.hh:556-590. -/
noncomputable def marked (threshold avg : ℝ) : Mark → Mark
  | none => none
  | some b => some (if b = false then (if avg > threshold then true else b) else b)

/-- Addition of material, source/ThermalPhysics.templates.hh:692-711, :800-804: a listed cell without material becomes material; the
value transferred for it is the infinity of the dummy data. -/
def added (listed : Bool) : Mark → Mark
  | none => if listed then some (flag none) else none
  | some b => some b

/-- An adaptation, application/adamantine.hh:361-509.  An unchanged cell keeps its data, children get the data of their parent
and the parent of a coarsened family the value of the first child (`CellDataTransfer` with its default strategies); whether the parent of a
family of cells with and without material holds material is left open (`x`). -/
inductive Adapted {n : ℕ} (co : Bool) : MTree n → MTree n → Prop
  | keep (d : Mark) : Adapted co (.leaf d) (.leaf d)
  | refine (d : Mark) : Adapted co (.leaf d) (.node fun _ => .leaf d)
  | node (f f' : Child n → MTree n) (h : ∀ c, Adapted co (f c) (f' c)) : Adapted co (.node f) (.node f')
  | coarsen (d : Child n → Mark) (x : Mark) (h : co = true) (hx : ∀ b, x = some b → b = flag (d fun _ => false))
      (hm : (∀ c, (d c).isSome = true) → x.isSome = true) (hn : (∀ c, d c = none) → x = none) :
      Adapted co (.node fun c => .leaf (d c)) (.leaf x)

/-- A function applied at every active cell. -/
def MTree.everywhere {n : ℕ} (g : List (Child n) → Mark → Mark) (p : List (Child n)) : MTree n → MTree n
  | .leaf d => .leaf (g p d)
  | .node f => .node fun c => (f c).everywhere g (p ++ [c])

/-- What happens to the cells of a coarse cell. -/
inductive Event (n : ℕ)
  | mark (threshold : ℝ) (avg : List (Child n) → ℝ)
  | add (listed : List (Child n) → Bool)
  | adapt

/-- One event. -/
def Step {n : ℕ} (co : Bool) : Event n → MTree n → MTree n → Prop
  | .mark thr avg, t, t' => t' = t.everywhere (fun p => marked thr (avg p)) []
  | .add l, t, t' => t' = t.everywhere (fun p => added (l p)) []
  | .adapt, t, t' => Adapted co t t'

/-- A history. -/
inductive Run {n : ℕ} (co : Bool) : List (Event n) → MTree n → MTree n → Prop
  | nil (t : MTree n) : Run co [] t t
  | cons (e : Event n) (es : List (Event n)) (t t1 t2 : MTree n) (h : Step co e t t1) (hs : Run co es t1 t2) :
      Run co (e :: es) t t2

/-! ## Proofs -/

theorem everywhere_active {n : ℕ} (g : List (Child n) → Mark → Mark) (t : MTree n) : ∀ (p p' : List (Child n)) (d' : Mark),
    (t.everywhere g p).active p' = some d' ↔ ∃ d, t.active p' = some d ∧ d' = g (p ++ p') d := by
  induction t with
  | leaf d =>
    intro p p' d'
    cases p' with
    | nil => simp [MTree.everywhere, MTree.active, eq_comm]
    | cons c p' => simp [MTree.everywhere, MTree.active]
  | node f ih =>
    intro p p' d'
    cases p' with
    | nil => simp [MTree.everywhere, MTree.active]
    | cons c p' =>
      simp only [MTree.everywhere, MTree.active]
      rw [ih c]
      simp

theorem active_unique {n : ℕ} (t : MTree n) : ∀ p p' d d', t.active p = some d → t.active p' = some d' → p <+: p' → p = p' := by
  induction t with
  | leaf e =>
    intro p p' d d' h h' _
    cases p with
    | cons c p => cases h
    | nil =>
      cases p' with
      | cons c p' => cases h'
      | nil => rfl
  | node f ih =>
    intro p p' d d' h h' hp
    cases p with
    | nil => cases h
    | cons c p =>
      cases p' with
      | nil => cases h'
      | cons c' p' =>
        rw [List.cons_prefix_cons] at hp
        obtain ⟨rfl, hp⟩ := hp
        rw [ih c p p' d d' h h' hp]

theorem adapted_active {n : ℕ} {t t' : MTree n} (h : Adapted false t t') :
    ∀ p' d', t'.active p' = some d' → ∃ p, p <+: p' ∧ t.active p = some d' := by
  induction h with
  | keep d =>
    intro p' d' h
    cases p' with
    | nil => exact ⟨[], List.nil_prefix, h⟩
    | cons c p' => cases h
  | refine d =>
    intro p' d' h
    cases p' with
    | nil => cases h
    | cons c p' =>
      cases p' with
      | nil => cases h; exact ⟨[], List.nil_prefix, rfl⟩
      | cons c' p' => cases h
  | node f f' h ih =>
    intro p' d' h'
    cases p' with
    | nil => cases h'
    | cons c p' =>
      obtain ⟨p, h1, h2⟩ := ih c p' d' h'
      exact ⟨c :: p, List.cons_prefix_cons.2 ⟨rfl, h1⟩, h2⟩
  | coarsen d x h _ _ _ => cases h

/-- A call of `mark_has_melted` in event `e` reached the cell `p` of the mesh `t` above the threshold. -/
def Hot {n : ℕ} (e : Event n) (t : MTree n) (p : List (Child n)) : Prop :=
  ∃ thr avg b, e = .mark thr avg ∧ t.active p = some (some b) ∧ thr < avg p

/-- One step backwards. -/
theorem step_back {n : ℕ} (e : Event n) (t t' : MTree n) (h : Step false e t t') (p' : List (Child n)) (b' : Bool)
    (h' : t'.active p' = some (some b')) : ∃ p d, p <+: p' ∧ t.active p = some d ∧ (b' = true ↔ (d = none ∨ d = some true) ∨ Hot e t p) := by
  classical
  cases e with
  | mark thr avg =>
    have h : t' = t.everywhere (fun p => marked thr (avg p)) [] := h
    rw [h, everywhere_active] at h'
    obtain ⟨d, hd, hd'⟩ := h'
    refine ⟨p', d, List.prefix_rfl, hd, ?_⟩
    cases d with
    | none => simp [marked] at hd'
    | some b =>
      simp only [marked, Option.some.injEq, List.nil_append] at hd'
      have hot : Hot (.mark thr avg) t p' ↔ thr < avg p' := by
        constructor
        · rintro ⟨thr', avg', b1, h1, _, h3⟩
          cases h1
          exact h3
        · intro h; exact ⟨thr, avg, b, rfl, hd, h⟩
      rw [hot, hd']
      cases b <;> by_cases ht : thr < avg p' <;> simp [ht]
  | add l =>
    have h : t' = t.everywhere (fun p => added (l p)) [] := h
    rw [h, everywhere_active] at h'
    obtain ⟨d, hd, hd'⟩ := h'
    refine ⟨p', d, List.prefix_rfl, hd, ?_⟩
    have hot : ¬ Hot (.add l) t p' := by
      rintro ⟨thr', avg', b1, h1, _, h3⟩
      cases h1
    cases d with
    | none =>
      simp only [added, flag] at hd'
      by_cases hl : l ([] ++ p') = true
      · rw [if_pos hl] at hd'
        simp only [Option.some.injEq] at hd'
        simp [hd']
      · rw [if_neg hl] at hd'; cases hd'
    | some b =>
      simp only [added, Option.some.injEq] at hd'
      subst hd'
      simp [hot]
  | adapt =>
    obtain ⟨p, h1, h2⟩ := adapted_active h p' _ h'
    refine ⟨p, _, h1, h2, ?_⟩
    have hot : ¬ Hot .adapt t p := by
      rintro ⟨thr', avg', b1, h1, _, h3⟩
      cases h1
    simp [hot]

/-- Void cells stay void backwards. -/
theorem step_back_none {n : ℕ} (e : Event n) (t t' : MTree n) (h : Step false e t t') (p' : List (Child n))
    (h' : t'.active p' = some none) : ∃ p, p <+: p' ∧ t.active p = some none := by
  cases e with
  | mark thr avg =>
    have h : t' = t.everywhere (fun p => marked thr (avg p)) [] := h
    rw [h, everywhere_active] at h'
    obtain ⟨d, hd, hd'⟩ := h'
    cases d with
    | none => exact ⟨p', List.prefix_rfl, hd⟩
    | some b => simp [marked] at hd'
  | add l =>
    have h : t' = t.everywhere (fun p => added (l p)) [] := h
    rw [h, everywhere_active] at h'
    obtain ⟨d, hd, hd'⟩ := h'
    cases d with
    | none => exact ⟨p', List.prefix_rfl, hd⟩
    | some b => simp [added] at hd'
  | adapt =>
    obtain ⟨p, h1, h2⟩ := adapted_active h p' _ h'
    exact ⟨p, h1, h2⟩

/-- What the marks of a later cell say about a former mesh. -/
theorem run_back {n : ℕ} (es : List (Event n)) (t t' : MTree n) (h : Run false es t t') :
    ∀ p' d', t'.active p' = some d' → ∃ p d, p <+: p' ∧ t.active p = some d ∧
      (d' = none → d = none) ∧ ∀ b', d' = some b' → (b' = true ↔ (d = none ∨ d = some true) ∨
        ∃ a e s c, es = a ++ e :: c ∧ Run false a t s ∧ Run false (e :: c) s t' ∧ ∃ q, q <+: p' ∧ Hot e s q) := by
  induction h with
  | nil t =>
    intro p' d' h
    refine ⟨p', d', List.prefix_rfl, h, id, fun b' hb => ?_⟩
    subst hb
    constructor
    · rintro rfl; exact Or.inl (Or.inr rfl)
    · rintro ((h | h) | ⟨a, e, s, c, h, _⟩)
      · cases h
      · exact Option.some.inj h
      · simp at h
  | cons e es t t1 t2 h hs ih =>
    intro p' d' h'
    obtain ⟨p1, d1, a1, b1, n1, c1⟩ := ih p' d' h'
    cases d1 with
    | none =>
      obtain ⟨p, hp, hd⟩ := step_back_none e t t1 h p1 b1
      refine ⟨p, none, hp.trans a1, hd, fun _ => rfl, fun b' hb => ?_⟩
      have := (c1 b' hb).2 (Or.inl (Or.inl rfl))
      exact ⟨fun _ => Or.inl (Or.inl rfl), fun _ => this⟩
    | some m1 =>
      obtain ⟨p, d, hp, hd, hm⟩ := step_back e t t1 h p1 m1 b1
      refine ⟨p, d, hp.trans a1, hd, fun hn => (by cases n1 hn), fun b' hb => ?_⟩
      rw [c1 b' hb]
      constructor
      · rintro ((h1 | h1) | ⟨a, e', s, c, he, r1, r2, q, hq, hot⟩)
        · cases h1
        · rcases hm.1 (Option.some.inj h1) with h2 | h2
          · exact Or.inl h2
          · exact Or.inr ⟨[], e, t, es, rfl, .nil t, .cons e es t t1 t2 h hs, p, hp.trans a1, h2⟩
        · exact Or.inr ⟨e :: a, e', s, c, by rw [he]; rfl, .cons e a t t1 s h r1, r2, q, hq, hot⟩
      · rintro (h2 | ⟨a, e', s, c, he, r1, r2, q, hq, hot⟩)
        · exact Or.inl (Or.inr (by rw [hm.2 (Or.inl h2)]))
        · -- a hot call in some run to the same mesh: the mark persists
          have key : ∀ (es : List (Event n)) (x y : MTree n), Run false es x y → ∀ p1 b1, y.active p1 = some (some b1) →
              ∀ q, q <+: p1 → (∃ b, x.active q = some (some b) ∧ b = true) → b1 = true := by
            intro es x y hr
            induction hr with
            | nil x =>
              intro p1 b1 hb q hq ⟨b, hb2, hb3⟩
              obtain rfl := active_unique _ q p1 _ _ hb2 hb hq
              rw [hb] at hb2
              simp only [Option.some.injEq] at hb2
              rw [hb2, hb3]
            | cons e es x x1 y hst _ ih =>
              intro p1 b1 hb q hq ⟨b, hb2, hb3⟩
              -- the ancestor of p1 in x1
              rename_i hr'
              have hanc : ∀ (es : List (Event n)) (x y : MTree n), Run false es x y → ∀ p' d', y.active p' = some d' →
                  ∃ p d, p <+: p' ∧ x.active p = some d ∧ (d' = none → d = none) := by
                intro es x y hr
                induction hr with
                | nil x => exact fun p' d' h => ⟨p', d', List.prefix_rfl, h, id⟩
                | cons e es x x1 y hst _ ih =>
                  intro p' d' h
                  obtain ⟨p1, d1, i1, i2, i3⟩ := ih p' d' h
                  cases d1 with
                  | none =>
                    obtain ⟨p, j1, j2⟩ := step_back_none e x x1 hst p1 i2
                    exact ⟨p, none, j1.trans i1, j2, fun _ => rfl⟩
                  | some m =>
                    obtain ⟨p, d, j1, j2, _⟩ := step_back e x x1 hst p1 m i2
                    exact ⟨p, d, j1.trans i1, j2, fun hn => (by cases i3 hn)⟩
              obtain ⟨p2, d2, i1, i2, i3⟩ := hanc es x1 y hr' p1 _ hb
              have hq2 : ∀ q2 d3, q2 <+: p2 → x.active q2 = some d3 → q2 = q := by
                intro q2 d3 hq2 hd3
                rcases List.prefix_or_prefix_of_prefix (hq2.trans i1) hq with h | h
                · exact active_unique x q2 q _ _ hd3 hb2 h
                · exact (active_unique x q q2 _ _ hb2 hd3 h).symm
              cases d2 with
              | none =>
                obtain ⟨q2, j1, j2⟩ := step_back_none e x x1 hst p2 i2
                obtain rfl := hq2 q2 _ j1 j2
                rw [hb2] at j2; cases j2
              | some m2 =>
                obtain ⟨q2, d3, j1, j2, j3⟩ := step_back e x x1 hst p2 m2 i2
                obtain rfl := hq2 q2 _ j1 j2
                rw [hb2] at j2
                have : m2 = true := j3.2 (Or.inl (Or.inr (by rw [← Option.some.inj j2, hb3])))
                exact ih p1 b1 hb p2 i1 ⟨m2, i2, this⟩
          -- apply to the run after the hot event
          obtain ⟨thr, avg, b0, rfl, hact, hlt⟩ := hot
          cases r2 with
          | cons _ _ _ s1 _ hst hrest =>
            have hs1 : s1.active q = some (some true) := by
              have : s1 = s.everywhere (fun p => marked thr (avg p)) [] := hst
              rw [this, everywhere_active]
              refine ⟨_, hact, ?_⟩
              cases b0 <;> simp [marked, hlt]
            have hb' : t2.active p' = some (some b') := by rw [h', hb]
            have := key c s1 t2 hrest p' b' hb' q hq ⟨true, hs1, rfl⟩
            exact (c1 b' hb).1 this

/-- **C42 on an adapting mesh** (partial: without coarsening).  After any history of time steps, additions of material and refinements, a cell
with material is marked exactly if the cell of the first mesh in which it lies was marked or held no material, or if in some earlier call of
`mark_has_melted` the material cell in which it lies had a mean temperature above the threshold. -/
theorem C42_adapting_partial {n : ℕ} (es : List (Event n)) (t t' : MTree n) (h : Run false es t t') (p' : List (Child n)) (b' : Bool)
    (h' : t'.active p' = some (some b')) :
    ∃ p d, p <+: p' ∧ t.active p = some d ∧ (b' = true ↔ d = none ∨ d = some true ∨
      ∃ before after s thr avg, es = before ++ Event.mark thr avg :: after ∧ Run false before t s ∧
        Run false (Event.mark thr avg :: after) s t' ∧ ∃ q b, q <+: p' ∧ s.active q = some (some b) ∧ thr < avg q) := by
  obtain ⟨p, d, h1, h2, _, h3⟩ := run_back es t t' h p' _ h'
  refine ⟨p, d, h1, h2, (h3 b' rfl).trans ?_⟩
  constructor
  · rintro ((h | h) | ⟨a, e, s, c, he, r1, r2, q, hq, thr, avg, b, rfl, hb, hlt⟩)
    · exact Or.inl h
    · exact Or.inr (Or.inl h)
    · exact Or.inr (Or.inr ⟨a, c, s, thr, avg, he, r1, r2, q, b, hq, hb, hlt⟩)
  · rintro (h | h | ⟨a, c, s, thr, avg, he, r1, r2, q, b, hq, hb, hlt⟩)
    · exact Or.inl (Or.inl h)
    · exact Or.inl (Or.inr h)
    · exact Or.inr ⟨a, _, s, c, he, r1, r2, q, hq, thr, avg, b, rfl, hb, hlt⟩

/-- **C42 on an adapting mesh** (partial: without coarsening): marks and material are never lost.  A cell that lies in a marked cell of an
earlier mesh is marked, and one that lies in a cell with material holds material. -/
theorem C42_marks_persist_partial {n : ℕ} (es : List (Event n)) (t t' : MTree n) (h : Run false es t t') (p p' : List (Child n))
    (hp : p <+: p') (b : Bool) (hb : t.active p = some (some b)) (d' : Mark) (h' : t'.active p' = some d') :
    ∃ b', d' = some b' ∧ (b = true → b' = true) := by
  obtain ⟨p0, d, h1, h2, h3, h4⟩ := run_back es t t' h p' d' h'
  have hpp : p0 = p := by
    rcases List.prefix_or_prefix_of_prefix h1 hp with h | h
    · exact active_unique t p0 p _ _ h2 hb h
    · exact (active_unique t p p0 _ _ hb h2 h).symm
  subst hpp
  obtain rfl : d = some b := by rw [hb] at h2; exact (Option.some.inj h2).symm
  cases d' with
  | none => cases h3 rfl
  | some b' =>
    refine ⟨b', rfl, ?_⟩
    rintro rfl
    exact (h4 b' rfl).2 (Or.inl (Or.inr rfl))

/-- Every admissible adaptation of the mesh (`C21`) has such a transfer of the marks. -/
theorem C42_every_adaptation {n : ℕ} (co : Bool) (N : ℕ) (beams : List (Refinement.Box n)) (b : Refinement.Box n) (l : ℕ)
    (t : MTree n) (s' : Refinement.Tree n) (h : Refinement.Adapts (Refinement.passFlags co N beams) N b l t.shape s') :
    ∃ t', Adapted co t t' ∧ t'.shape = s' := by
  induction t generalizing b l s' with
  | leaf d =>
    simp only [MTree.shape] at h
    cases h with
    | keep _ _ _ => exact ⟨_, .keep d, rfl⟩
    | refine _ _ _ => exact ⟨_, .refine d, rfl⟩
    | balance _ _ _ => exact ⟨_, .refine d, rfl⟩
  | node f ih =>
    simp only [MTree.shape] at h
    generalize hs : Refinement.Tree.node (fun c => (f c).shape) = s at h
    cases h with
    | keep _ _ _ => cases hs
    | refine _ _ _ => cases hs
    | balance _ _ _ => cases hs
    | node _ _ g g' h =>
      simp only [Refinement.Tree.node.injEq] at hs
      subst hs
      choose f' hf' using fun c => ih c _ _ _ (h c)
      refine ⟨.node f', .node f f' fun c => (hf' c).1, ?_⟩
      simp only [MTree.shape, (hf' _).2]
    | coarsen _ _ h =>
      simp only [Refinement.Tree.node.injEq] at hs
      have hleaf : ∀ c, ∃ d, f c = .leaf d := by
        intro c
        have := congrFun hs c
        cases hc : f c with
        | leaf d => exact ⟨d, rfl⟩
        | node g => rw [hc] at this; simp [MTree.shape] at this
      choose d hd using hleaf
      have hf : f = fun c => .leaf (d c) := funext hd
      subst hf
      have := (Refinement.coarsen_flag co N beams _ _).1 (h fun _ => false)
      refine ⟨.leaf (if ∃ c, (d c).isSome = true then some (flag (d fun _ => false)) else none),
        .coarsen d _ this.1 ?_ ?_ ?_, rfl⟩
      · intro b' hb
        by_cases hc : ∃ c, (d c).isSome = true
        · rw [if_pos hc] at hb; exact (Option.some.inj hb).symm
        · rw [if_neg hc] at hb; cases hb
      · intro hall
        rw [if_pos ⟨fun _ => false, hall _⟩]; rfl
      · intro hall
        rw [if_neg]
        rintro ⟨c, hc⟩
        rw [hall c] at hc; cases hc

/-! ## Examples -/

/-- A cell of powder is refined and its right half is heated above 1600 K. -/
theorem example_run :
    Run false [.adapt, .mark 1600 fun p => if p = [fun _ => true] then 1800 else 300] (.leaf (some false) : MTree 1)
      (.node fun c => .leaf (some (c 0))) := by
  refine .cons _ _ _ (.node fun _ => .leaf (some false)) _ (.refine _) (.cons _ _ _ _ _ ?_ (.nil _))
  simp only [Step, MTree.everywhere, MTree.node.injEq]
  funext c
  have : (c 0 = true) ↔ c = fun _ => true := by
    constructor
    · intro h; funext i; rw [Fin.eq_zero i, h]
    · intro h; rw [h]
  by_cases hc : c 0 = true
  · have hc' := this.1 hc
    simp only [marked, List.nil_append, hc', if_true]
    norm_num
  · have hc' : ¬ c = fun _ => true := fun h => hc (this.2 h)
    have hf : c 0 = false := by simpa using hc
    simp only [marked, List.nil_append, List.cons.injEq, and_true, hc', if_false, hf, if_true]
    norm_num

/-- **C42 fails with coarsening** (`coarsen_after_beam`): after the molten right half of a cell has been marked, coarsening gives the parent the mark
of the first child, and the molten material is no longer marked; conversely, if only the first child is marked, coarsening marks material that
never melted. -/
theorem C42_coarsening_refuted :
    (∃ (es : List (Event 1)) (t1 t2 : MTree 1), Run true es (.leaf (some false)) t1 ∧ t1.active [fun _ => true] = some (some true) ∧
      Step true .adapt t1 t2 ∧ t2.active [] = some (some false)) ∧
    (∃ t1 t2 : MTree 1, t1.active [fun _ => true] = some (some false) ∧
      Step true .adapt t1 t2 ∧ t2.active [] = some (some true)) := by
  have weaken : ∀ t t' : MTree 1, Adapted false t t' → Adapted true t t' := by
    intro t t' h
    induction h with
    | keep d => exact .keep d
    | refine d => exact .refine d
    | node f f' _ ih => exact .node f f' ih
    | coarsen d x h _ _ _ => cases h
  have hrun : ∀ (es : List (Event 1)) (t t' : MTree 1), Run false es t t' → Run true es t t' := by
    intro es t t' h
    induction h with
    | nil t => exact .nil t
    | cons e es t t1 t2 h _ ih =>
      refine .cons e es t t1 t2 ?_ ih
      cases e with
      | mark thr avg => exact h
      | add l => exact h
      | adapt => exact weaken _ _ h
  constructor
  · refine ⟨_, _, .leaf (some false), hrun _ _ _ example_run, rfl, ?_, rfl⟩
    refine .coarsen (fun c => some (c 0)) _ rfl ?_ (fun _ => rfl) (fun h => ?_)
    · intro b hb; simpa [flag] using hb
    · have := h fun _ => false; cases this
  · refine ⟨.node fun c => .leaf (some (!c 0)), .leaf (some true), rfl, ?_, rfl⟩
    refine .coarsen (fun c => some (!c 0)) _ rfl ?_ (fun _ => rfl) (fun h => ?_)
    · intro b hb; simpa [flag] using hb
    · have := h fun _ => false; cases this

end Verif.Thermal.MeltHistory
