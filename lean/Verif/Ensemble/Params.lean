import Mathlib.Data.Real.Basic
import Mathlib.Data.List.Basic
import Mathlib.Tactic.Linarith
import Mathlib.Tactic.NormNum
import Mathlib.Tactic.Ring

/-!
# C27, C28, C29: ensemble databases (`source/ensemble_management.cc`)

Model and proofs.  `double` is `ℝ`.  The generator `std::mt19937` is default constructed in every call of
`get_normal_random_vector`, and `std::normal_distribution` returns `mean + stddev * z` for the next standard normal number
`z` of the generator; the model takes the stream `z : ℕ → ℝ` as an arbitrary parameter.  A property tree is a function from
dotted paths to numbers (leaves with text are outside the model); the `ensemble` child is a tree.
-/

namespace Verif.Ensemble

/-! ## Model -/

/-- The `i`-th number returned by `normal_dist_generator` in a call, `ensemble_management.cc:25-26`. -/
def draw (z : ℕ → ℝ) (mean stddev : ℝ) (i : ℕ) : ℝ := mean + stddev * z i

open Classical in
/-- The loop `do … while (output_vector[i] < 0.)`, `ensemble_management.cc:38-48`, started when `i` numbers have been
consumed: the index of the accepted number, or `none` if the loop does not end. -/
noncomputable def accept (z : ℕ → ℝ) (mean stddev : ℝ) (i : ℕ) : Option ℕ :=
  if h : ∃ k, i ≤ k ∧ ¬ draw z mean stddev k < 0 then some (Nat.find h) else none

/-- The loop over `output_vector`, `ensemble_management.cc:32-49`; `i` numbers have been consumed. -/
noncomputable def fill (z : ℕ → ℝ) (mean stddev : ℝ) : ℕ → ℕ → Option (List ℝ)
  | 0, _ => some []
  | n + 1, i =>
    match accept z mean stddev i with
    | none => none
    | some k => (fill z mean stddev n (k + 1)).map (draw z mean stddev k :: ·)

/-- `get_normal_random_vector(length, n_rejected_draws, mean, stddev)`, `ensemble_management.cc:18-52`; `none` if it does
not return. -/
noncomputable def normalVector (z : ℕ → ℝ) (length nRejected : ℕ) (mean stddev : ℝ) : Option (List ℝ) :=
  fill z mean stddev length nRejected

/-- A child of the property tree `ensemble`: a key with its children (a leaf has none). -/
inductive Tree
  | node (key : String) (children : List Tree)

/-- A database: dotted path to number. -/
abbrev Db := String → Option ℝ

/-- `database.put(path, value)`. -/
def Db.put (d : Db) (path : String) (v : ℝ) : Db := fun k => if k = path then some v else d k

/-- `full_path.erase(full_path.length() - 7)`, `ensemble_management.cc:188`; `none` is `std::out_of_range`. -/
def eraseSuffix (s : String) : Option String :=
  if s.toList.length < 7 then none else some (String.ofList (s.toList.take (s.toList.length - 7)))

/-- State of `traverse`: `database_ensemble`, `keys`, `n_rejected_draws`. -/
structure TState where
  dbs : List Db
  keys : List String
  nRejected : ℕ

/-- `database_ensemble[member].put(full_path, values[member])` for all members, `ensemble_management.cc:200-203`. -/
def putAll (dbs : List Db) (path : String) (values : List ℝ) : List Db :=
  dbs.zipWith (fun d v => d.put path v) values

/-- The body of `traverse` for a leaf, `ensemble_management.cc:177-204`; `none` is an exception, abort or endless loop. -/
noncomputable def visitLeaf (z : ℕ → ℝ) (localSize globalSize : ℕ) (fullPath : String) (s : TState) : Option TState :=
  if fullPath = "ensemble_simulation" ∨ fullPath = "ensemble_size" then some s
  else
    match s.dbs[0]? with
    | none => none
    | some d0 =>
      match d0 ("ensemble." ++ fullPath), eraseSuffix fullPath with
      | some stddev, some target =>
        match d0 target with
        | none => none
        | some mean =>
          match normalVector z localSize s.nRejected mean stddev with
          | none => none
          | some values =>
            some ⟨putAll s.dbs target values, s.keys ++ [target], s.nRejected + globalSize⟩
      | _, _ => none

/-- `path.empty() ? key : path + "." + key`, `ensemble_management.cc:174`. -/
def joinPath (path key : String) : String := if path = "" then key else path ++ "." ++ key

mutual
/-- One pass of the loop of `traverse`, `ensemble_management.cc:172-210`. -/
noncomputable def traverseNode (z : ℕ → ℝ) (l g : ℕ) (path : String) : Tree → TState → Option TState
  | .node key [], s => visitLeaf z l g (joinPath path key) s
  | .node key (c :: cs), s => traverse z l g (joinPath path key) (c :: cs) s
/-- `traverse`, `ensemble_management.cc:166-211`. -/
noncomputable def traverse (z : ℕ → ℝ) (l g : ℕ) (path : String) : List Tree → TState → Option TState
  | [], s => some s
  | t :: ts, s =>
    match traverseNode z l g path t s with
    | none => none
    | some s' => traverse z l g path ts s'
end

/-- `create_database_ensemble`, `ensemble_management.cc:213-265` (without the data files); `first` is
`first_local_member`. -/
noncomputable def createDatabases (z : ℕ → ℝ) (db : Db) (ens : List Tree) (first localSize globalSize : ℕ) :
    Option (List Db) :=
  (traverse z localSize globalSize "" ens ⟨List.replicate localSize db, [], first⟩).map (·.dbs)

/-! ## C27 -/

theorem accept_spec {z : ℕ → ℝ} {mean stddev : ℝ} {i k : ℕ} (h : accept z mean stddev i = some k) :
    i ≤ k ∧ 0 ≤ draw z mean stddev k := by
  classical
  unfold accept at h
  split at h
  · rename_i hex
    simp only [Option.some.injEq] at h
    have := Nat.find_spec hex
    rw [h] at this
    exact ⟨this.1, not_lt.1 this.2⟩
  · cases h

theorem accept_self {z : ℕ → ℝ} {mean stddev : ℝ} {i : ℕ} (h : 0 ≤ draw z mean stddev i) :
    accept z mean stddev i = some i := by
  classical
  have hex : ∃ k, i ≤ k ∧ ¬ draw z mean stddev k < 0 := ⟨i, le_rfl, not_lt.2 h⟩
  unfold accept
  rw [dif_pos hex]
  congr 1
  exact le_antisymm (Nat.find_min' hex ⟨le_rfl, not_lt.2 h⟩) (Nat.find_spec hex).1

theorem fill_length {z : ℕ → ℝ} {mean stddev : ℝ} {n i : ℕ} {v : List ℝ} (h : fill z mean stddev n i = some v) :
    v.length = n := by
  induction n generalizing i v with
  | zero => simp [fill] at h; subst h; rfl
  | succ n ih =>
    simp only [fill] at h
    split at h
    · cases h
    · simp only [Option.map_eq_some_iff] at h
      obtain ⟨w, hw, rfl⟩ := h
      simp [ih hw]

/-- C27: a sampled value is never negative, whatever the random numbers, mean and deviation. -/
theorem C27_nonneg (z : ℕ → ℝ) (n skip : ℕ) (mean stddev : ℝ) (v : List ℝ)
    (h : normalVector z n skip mean stddev = some v) : v.length = n ∧ ∀ x ∈ v, 0 ≤ x := by
  refine ⟨fill_length h, ?_⟩
  unfold normalVector at h
  induction n generalizing skip v with
  | zero => simp [fill] at h; subst h; simp
  | succ n ih =>
    simp only [fill] at h
    split at h
    · cases h
    · rename_i k hk
      simp only [Option.map_eq_some_iff] at h
      obtain ⟨w, hw, rfl⟩ := h
      intro x hx
      rcases List.mem_cons.1 hx with rfl | hx
      · exact (accept_spec hk).2
      · exact ih _ w hw x hx

theorem fill_eq (z : ℕ → ℝ) (mean stddev : ℝ) (n i : ℕ) (h : ∀ k < n, 0 ≤ draw z mean stddev (i + k)) :
    fill z mean stddev n i = some ((List.range n).map fun k => draw z mean stddev (i + k)) := by
  induction n generalizing i with
  | zero => rfl
  | succ n ih =>
    have h0 := accept_self (h 0 (by omega))
    simp only [Nat.add_zero] at h0
    have h1 := ih (i + 1) (fun k hk => by
      have := h (k + 1) (by omega)
      rwa [show i + 1 + k = i + (k + 1) by ring])
    simp only [fill, h0, h1, Option.map_some, List.range_succ_eq_map, List.map_cons, List.map_map, Nat.add_zero]
    congr 3
    funext k
    simp only [Function.comp_apply]
    congr 1; simp only [Nat.succ_eq_add_one]; ring

/-- C27: with deviation zero and a non-negative mean every member has the mean, on any partition. -/
theorem C27_zero_deviation (z : ℕ → ℝ) (n skip : ℕ) (mean : ℝ) (hm : 0 ≤ mean) :
    normalVector z n skip mean 0 = some (List.replicate n mean) := by
  unfold normalVector
  rw [fill_eq _ _ _ _ _ (fun k _ => by simpa [draw] using hm)]
  simp [draw]

/-- C27: with deviation zero and a negative mean (for example a temperature in degrees Celsius) the sampling does not
return. -/
theorem C27_negative_mean_refuted (z : ℕ → ℝ) (n skip : ℕ) (mean : ℝ) (hm : mean < 0) :
    normalVector z (n + 1) skip mean 0 = none := by
  have : accept z mean 0 skip = none := by
    classical
    unfold accept
    rw [dif_neg]
    rintro ⟨k, _, hk⟩
    exact hk (by simpa [draw] using hm)
  simp [normalVector, fill, this]

/-- C27, when no drawn number is negative: the value of the parameter with index `param` for the member with global index
`first + m` is `mean + stddev * z (first + m + param * globalSize)` and depends on the partition only through the global
index.  Missing: draws that are rejected (see `C27_rejection_refuted`). -/
theorem C27_partition_independent_partial (z : ℕ → ℝ) (mean stddev : ℝ) (first localSize globalSize param : ℕ)
    (hpos : ∀ i < globalSize, 0 ≤ mean + stddev * z (i + param * globalSize))
    (hsize : first + localSize ≤ globalSize) :
    ∃ v, normalVector z localSize (first + param * globalSize) mean stddev = some v ∧
      ∀ m < localSize, v[m]? = some (mean + stddev * z (first + m + param * globalSize)) := by
  refine ⟨_, fill_eq z mean stddev localSize _ (fun k hk => ?_), ?_⟩
  · have := hpos (first + k) (by omega)
    rwa [show first + k + param * globalSize = first + param * globalSize + k by ring] at this
  · intro m hm
    simp only [List.getElem?_map, List.getElem?_range hm, Option.map_some, draw]
    rw [show first + m + param * globalSize = first + param * globalSize + m by ring]

/-- C27 is violated as soon as a draw is rejected: for **every** stream whose first number is negative and whose next two are
different and non-negative, an ensemble of two members (mean 0, deviation 1) gives member 1 the value `z 2` on one group of
ranks but `z 1`, the value of member 0, on two groups. -/
theorem C27_rejection_refuted (z : ℕ → ℝ) (h0 : z 0 < 0) (h1 : 0 ≤ z 1) (h2 : 0 ≤ z 2) :
    normalVector z 2 0 0 1 = some [z 1, z 2] ∧          -- one group: members 0 and 1
    normalVector z 1 0 0 1 = some [z 1] ∧               -- two groups: member 0
    normalVector z 1 1 0 1 = some [z 1] := by           -- two groups: member 1
  have hd : ∀ i, draw z 0 1 i = z i := fun i => by simp [draw]
  have a0 : accept z 0 1 0 = some 1 := by
    classical
    have hex : ∃ k, 0 ≤ k ∧ ¬ draw z 0 1 k < 0 := ⟨1, by omega, by rw [hd]; exact not_lt.2 h1⟩
    unfold accept
    rw [dif_pos hex]
    congr 1
    rw [Nat.find_eq_iff]
    refine ⟨⟨by omega, by rw [hd]; exact not_lt.2 h1⟩, ?_⟩
    intro n hn hcon
    have : n = 0 := by omega
    subst this
    rw [hd] at hcon
    exact hcon.2 h0
  have a1 : accept z 0 1 1 = some 1 := accept_self (by rw [hd]; exact h1)
  have a2 : accept z 0 1 2 = some 2 := accept_self (by rw [hd]; exact h2)
  refine ⟨?_, ?_, ?_⟩ <;> simp [normalVector, fill, a0, a1, a2, hd]

/-- The hypotheses of the partial theorem are met by a non-trivial stream. -/
example : ∀ i < 4, (0 : ℝ) ≤ 10 + 2 * (fun n : ℕ => if n % 2 = 0 then (-1 : ℝ) else 3) (i + 1 * 4) := by
  intro i _
  dsimp only
  split <;> norm_num

/-! ## C28 -/

mutual
/-- Specification: the key sequences of the leaves below a child of `ensemble`. -/
def leafKeysNode : Tree → List (List String)
  | .node key [] => [[key]]
  | .node key (c :: cs) => (leafKeys (c :: cs)).map (key :: ·)
/-- Specification: the key sequences of the leaves of a list of children. -/
def leafKeys : List Tree → List (List String)
  | [] => []
  | t :: ts => leafKeysNode t ++ leafKeys ts
end

/-- Specification: the key sequence `a, b, c` is the path `a.b.c`. -/
def dotted : List String → String
  | [] => ""
  | [k] => k
  | k :: k' :: ks => k ++ "." ++ dotted (k' :: ks)

/-- Specification: the paths of the leaves of `ensemble` that are parameters. -/
def paramLeaves (ens : List Tree) : List String :=
  ((leafKeys ens).map dotted).filter fun p => ¬ (p = "ensemble_simulation" ∨ p = "ensemble_size")

mutual
/-- No key of the subtree is empty. -/
def Tree.NoEmptyKey : Tree → Prop
  | .node key cs => key ≠ "" ∧ NoEmptyKeys cs
/-- No key of the subtrees is empty. -/
def NoEmptyKeys : List Tree → Prop
  | [] => True
  | t :: ts => t.NoEmptyKey ∧ NoEmptyKeys ts
end

mutual
/-- The dotted paths of the leaves below a child of `ensemble`, as the code builds them. -/
def leafPathsNode (path : String) : Tree → List String
  | .node key [] => [joinPath path key]
  | .node key (c :: cs) => leafPaths (joinPath path key) (c :: cs)
/-- The dotted paths of the leaves of a list of children, as the code builds them. -/
def leafPaths (path : String) : List Tree → List String
  | [] => []
  | t :: ts => leafPathsNode path t ++ leafPaths path ts
end

theorem append_ne_empty {a b : String} (h : a ≠ "") : a ++ b ≠ "" := by
  intro hc
  apply h
  have := congrArg String.length hc
  rw [String.length_append] at this
  exact String.length_eq_zero_iff.mp (by have h0 : ("" : String).length = 0 := rfl; omega)

theorem joinPath_ne {path key : String} (hk : key ≠ "") : joinPath path key ≠ "" := by
  unfold joinPath
  split
  · exact hk
  · rename_i h
    rw [String.append_assoc]
    exact append_ne_empty h

theorem joinPath_joinPath {path key : String} (hk : key ≠ "") (k : String) (ks : List String) :
    joinPath (joinPath path key) (dotted (k :: ks)) = joinPath path (dotted (key :: k :: ks)) := by
  rw [joinPath, if_neg (joinPath_ne hk)]
  unfold joinPath
  split
  · rfl
  · rw [dotted]; simp only [String.append_assoc]

mutual
theorem leafKeysNode_ne (t : Tree) : ∀ ks ∈ leafKeysNode t, ks ≠ [] := by
  match t with
  | .node key [] => simp [leafKeysNode]
  | .node key (c :: cs) => simp [leafKeysNode]
theorem leafKeys_ne (ts : List Tree) : ∀ ks ∈ leafKeys ts, ks ≠ [] := by
  match ts with
  | [] => simp [leafKeys]
  | t :: ts =>
    intro ks hks
    rw [leafKeys, List.mem_append] at hks
    rcases hks with h | h
    · exact leafKeysNode_ne t ks h
    · exact leafKeys_ne ts ks h
end

mutual
theorem leafPathsNode_eq (path : String) (t : Tree) (h : t.NoEmptyKey) :
    leafPathsNode path t = (leafKeysNode t).map fun ks => joinPath path (dotted ks) := by
  match t with
  | .node key [] => simp [leafPathsNode, leafKeysNode, dotted]
  | .node key (c :: cs) =>
    rw [Tree.NoEmptyKey] at h
    rw [leafPathsNode, leafKeysNode, leafPaths_eq _ (c :: cs) h.2, List.map_map]
    refine List.map_congr_left fun ks hks => ?_
    have hne := leafKeys_ne (c :: cs) ks hks
    obtain ⟨k, ks', rfl⟩ : ∃ k ks', ks = k :: ks' := by
      cases ks with
      | nil => exact absurd rfl hne
      | cons k ks' => exact ⟨k, ks', rfl⟩
    exact joinPath_joinPath h.1 k ks'
theorem leafPaths_eq (path : String) (ts : List Tree) (h : NoEmptyKeys ts) :
    leafPaths path ts = (leafKeys ts).map fun ks => joinPath path (dotted ks) := by
  match ts with
  | [] => rfl
  | t :: ts =>
    rw [NoEmptyKeys] at h
    rw [leafPaths, leafKeys, List.map_append, leafPathsNode_eq path t h.1, leafPaths_eq path ts h.2]
end

/-- Visiting a list of leaves in order. -/
noncomputable def visitAll (z : ℕ → ℝ) (l g : ℕ) : List String → TState → Option TState
  | [], s => some s
  | p :: ps, s =>
    match visitLeaf z l g p s with
    | none => none
    | some s' => visitAll z l g ps s'

theorem visitAll_append (z : ℕ → ℝ) (l g : ℕ) (ps qs : List String) (s : TState) :
    visitAll z l g (ps ++ qs) s = (visitAll z l g ps s).bind (visitAll z l g qs) := by
  induction ps generalizing s with
  | nil => rfl
  | cons p ps ih =>
    simp only [List.cons_append, visitAll]
    cases visitLeaf z l g p s with
    | none => rfl
    | some s' => exact ih s'

mutual
theorem traverseNode_eq (z : ℕ → ℝ) (l g : ℕ) (path : String) (t : Tree) (s : TState) :
    traverseNode z l g path t s = visitAll z l g (leafPathsNode path t) s := by
  match t with
  | .node key [] =>
    simp only [traverseNode, leafPathsNode, visitAll]
    cases visitLeaf z l g (joinPath path key) s <;> rfl
  | .node key (c :: cs) =>
    simp only [traverseNode, leafPathsNode]
    exact traverse_eq z l g _ (c :: cs) s
theorem traverse_eq (z : ℕ → ℝ) (l g : ℕ) (path : String) (ts : List Tree) (s : TState) :
    traverse z l g path ts s = visitAll z l g (leafPaths path ts) s := by
  match ts with
  | [] => rfl
  | t :: ts =>
    simp only [traverse, leafPaths]
    rw [visitAll_append, traverseNode_eq z l g path t s]
    cases visitAll z l g (leafPathsNode path t) s with
    | none => rfl
    | some s' => exact traverse_eq z l g path ts s'
end

theorem visitAll_filter (z : ℕ → ℝ) (l g : ℕ) (ps : List String) (s : TState) :
    visitAll z l g ps s =
      visitAll z l g (ps.filter fun p => ¬ (p = "ensemble_simulation" ∨ p = "ensemble_size")) s := by
  induction ps generalizing s with
  | nil => rfl
  | cons p ps ih =>
    by_cases hp : p = "ensemble_simulation" ∨ p = "ensemble_size"
    · have hv : visitLeaf z l g p s = some s := by simp only [visitLeaf, if_pos hp]
      rw [List.filter_cons_of_neg (by simp only [decide_eq_true_eq, not_not]; exact hp)]
      simp only [visitAll, hv]
      exact ih s
    · rw [List.filter_cons_of_pos (by simpa using hp)]
      simp only [visitAll]
      cases visitLeaf z l g p s with
      | none => rfl
      | some s' => exact ih s'

theorem eraseSuffix_stddev (p : String) : eraseSuffix (p ++ "_stddev") = some p := by
  have hlen : (p ++ "_stddev").toList.length = p.toList.length + 7 := by
    rw [String.toList_append, List.length_append]; rfl
  have hnot : ¬ (p ++ "_stddev").toList.length < 7 := by omega
  unfold eraseSuffix
  rw [if_neg hnot, hlen]
  congr 1
  rw [Nat.add_sub_cancel, String.toList_append, List.take_left]
  exact String.ofList_toList

/-- The value sampled for the `j`-th parameter and the members of this group. -/
noncomputable def sampled (z : ℕ → ℝ) (db : Db) (first localSize globalSize : ℕ) (j : ℕ) (p : String) :
    Option (List ℝ) :=
  match db ("ensemble." ++ p ++ "_stddev"), db p with
  | some stddev, some mean => normalVector z localSize (first + j * globalSize) mean stddev
  | _, _ => none

theorem putAll_get (dbs : List Db) (path : String) (values : List ℝ) (m : ℕ) (d : Db) (v : ℝ)
    (hd : dbs[m]? = some d) (hv : values[m]? = some v) : (putAll dbs path values)[m]? = some (d.put path v) := by
  simp [putAll, List.getElem?_zipWith, hd, hv]

/-- Effect of visiting the parameter leaves `ps` (all distinct, none of them a companion entry itself). -/
theorem visitAll_effect (z : ℕ → ℝ) (db : Db) (first l g : ℕ) (hl : 0 < l) (ps : List String) (hnd : ps.Nodup)
    (hcomp : ∀ p ∈ ps, ∀ q ∈ ps, p ≠ "ensemble." ++ q ++ "_stddev")
    (hskip : ∀ p ∈ ps, ¬ (p ++ "_stddev" = "ensemble_simulation" ∨ p ++ "_stddev" = "ensemble_size"))
    (done : ℕ) (s s' : TState)
    (hdbs : s.dbs.length = l) (hrej : s.nRejected = first + done * g)
    (hsame : ∀ d ∈ s.dbs, ∀ p ∈ ps, d p = db p ∧ d ("ensemble." ++ p ++ "_stddev") = db ("ensemble." ++ p ++ "_stddev"))
    (h : visitAll z l g (ps.map (· ++ "_stddev")) s = some s') :
    s'.dbs.length = l ∧
    ∀ (m : ℕ) (d : Db), s.dbs[m]? = some d → ∃ d' : Db, s'.dbs[m]? = some d' ∧
      (∀ k, k ∉ ps → d' k = d k) ∧
      (∀ (j : ℕ) (p : String), ps[j]? = some p → ∃ vs, sampled z db first l g (done + j) p = some vs ∧ d' p = vs[m]?) := by
  induction ps generalizing done s with
  | nil =>
    simp only [List.map_nil, visitAll, Option.some.injEq] at h
    subst h
    exact ⟨hdbs, fun m d hd => ⟨d, hd, fun k _ => rfl, fun j p hp => by simp at hp⟩⟩
  | cons p ps ih =>
    simp only [List.map_cons, visitAll] at h
    obtain ⟨d0, hd0⟩ : ∃ d0, s.dbs[0]? = some d0 := ⟨_, List.getElem?_eq_getElem (by omega)⟩
    have hd0m := hsame d0 (List.mem_of_getElem? hd0) p (by simp)
    have hassoc : "ensemble." ++ (p ++ "_stddev") = "ensemble." ++ p ++ "_stddev" := (String.append_assoc ..).symm
    cases hv : visitLeaf z l g (p ++ "_stddev") s with
    | none => rw [hv] at h; cases h
    | some s1 =>
      rw [hv] at h
      simp only at h
      simp only [visitLeaf, if_neg (hskip p (by simp)), hd0, eraseSuffix_stddev, hassoc, hd0m.1, hd0m.2] at hv
      cases hsd : db ("ensemble." ++ p ++ "_stddev") with
      | none => rw [hsd] at hv; cases hv
      | some stddev =>
        rw [hsd] at hv
        simp only at hv
        cases hmn : db p with
        | none => rw [hd0m.1, hmn] at hv; cases hv
        | some mean =>
          rw [hd0m.1, hmn] at hv
          simp only at hv
          cases hnv : normalVector z l s.nRejected mean stddev with
          | none => rw [hnv] at hv; cases hv
          | some values =>
            rw [hnv] at hv
            simp only [Option.some.injEq] at hv
            have hvl : values.length = l := fill_length hnv
            have hp_notin : p ∉ ps := (List.nodup_cons.1 hnd).1
            have hs1 : s1.dbs = putAll s.dbs p values := by rw [← hv]
            have hs1r : s1.nRejected = s.nRejected + g := by rw [← hv]
            have ih' := ih (List.nodup_cons.1 hnd).2
              (fun a ha b hb => hcomp a (by simp [ha]) b (by simp [hb]))
              (fun a ha => hskip a (by simp [ha])) (done + 1) s1
              (by rw [hs1]; simp [putAll, hdbs, hvl])
              (by rw [hs1r, hrej]; ring)
              (by
                intro d hd q hq
                rw [hs1] at hd
                obtain ⟨m, hm⟩ := List.getElem?_of_mem hd
                simp only [putAll, List.getElem?_zipWith] at hm
                cases hdm : s.dbs[m]? with
                | none => rw [hdm] at hm; simp at hm
                | some e =>
                  cases hvm : values[m]? with
                  | none => rw [hdm, hvm] at hm; simp at hm
                  | some v =>
                    rw [hdm, hvm] at hm
                    simp only [Option.some.injEq] at hm
                    have he := hsame e (List.mem_of_getElem? hdm) q (by simp [hq])
                    have hqp : q ≠ p := fun hc => hp_notin (hc ▸ hq)
                    have hcq : "ensemble." ++ q ++ "_stddev" ≠ p :=
                      fun hc => hcomp p (by simp) q (by simp [hq]) hc.symm
                    rw [← hm]
                    simp only [Db.put, if_neg hqp, if_neg hcq]
                    exact he)
              h
            refine ⟨ih'.1, ?_⟩
            intro m d hd
            have hm : m < l := by rw [← hdbs]; exact (List.getElem?_eq_some_iff.1 hd).1
            obtain ⟨v, hvm⟩ : ∃ v, values[m]? = some v := ⟨_, List.getElem?_eq_getElem (by omega)⟩
            have hput := putAll_get s.dbs p values m d v hd hvm
            obtain ⟨d', hd', hother, hval⟩ := ih'.2 m (d.put p v) (by rw [hs1]; exact hput)
            refine ⟨d', hd', ?_, ?_⟩
            · intro k hk
              rw [List.mem_cons, not_or] at hk
              rw [hother k hk.2]
              simp [Db.put, hk.1]
            · intro j q hq
              cases j with
              | zero =>
                simp at hq; subst hq
                refine ⟨values, ?_, ?_⟩
                · simp only [sampled, hsd, hmn, Nat.add_zero]
                  rw [← hrej]; exact hnv
                · rw [hother p hp_notin, hvm]; simp [Db.put]
              | succ j =>
                simp at hq
                obtain ⟨vs, hvs, hd'q⟩ := hval j q hq
                exact ⟨vs, by rw [← hvs]; congr 1; ring, hd'q⟩

/-- C28: let the leaves of the `ensemble` section (apart from `ensemble_simulation` and `ensemble_size`), at any depth, be
the companions `p ++ "_stddev"` of distinct parameters `ps`.  Then in the database of each member of this group every
parameter in `ps` has the sampled value of that member and every other entry has its input value. -/
theorem C28_databases (z : ℕ → ℝ) (db : Db) (ens : List Tree) (first l g : ℕ) (hl : 0 < l) (ps : List String)
    (hkeys : NoEmptyKeys ens) (hleaves : paramLeaves ens = ps.map (· ++ "_stddev")) (hnd : ps.Nodup)
    (hcomp : ∀ p ∈ ps, ∀ q ∈ ps, p ≠ "ensemble." ++ q ++ "_stddev")
    (dbs : List Db) (h : createDatabases z db ens first l g = some dbs) :
    dbs.length = l ∧
    ∀ (m : ℕ) (d : Db), dbs[m]? = some d →
      (∀ k, k ∉ ps → d k = db k) ∧
      (∀ (j : ℕ) (p : String), ps[j]? = some p →
        ∃ vs, sampled z db first l g j p = some vs ∧ d p = vs[m]?) := by
  simp only [createDatabases, Option.map_eq_some_iff] at h
  obtain ⟨s', hs', rfl⟩ := h
  have hfilt := visitAll_filter z l g (leafPaths "" ens) ⟨List.replicate l db, [], first⟩
  have hpl : ((leafPaths "" ens).filter fun p => ¬ (p = "ensemble_simulation" ∨ p = "ensemble_size")) =
    ps.map (· ++ "_stddev") := by
    rw [leafPaths_eq "" ens hkeys]
    simp only [joinPath, if_pos]
    exact hleaves
  rw [traverse_eq, hfilt, hpl] at hs'
  have hskip : ∀ p ∈ ps, ¬ (p ++ "_stddev" = "ensemble_simulation" ∨ p ++ "_stddev" = "ensemble_size") := by
    intro p hp
    have hmem : p ++ "_stddev" ∈ paramLeaves ens := by rw [hleaves]; exact List.mem_map.2 ⟨p, hp, rfl⟩
    have := (List.mem_filter.1 hmem).2
    simpa using this
  have heff := visitAll_effect z db first l g hl ps hnd hcomp hskip 0 ⟨List.replicate l db, [], first⟩ s'
    (by simp) (by simp) (by
      intro d hd p _
      have : d = db := List.eq_of_mem_replicate hd
      subst this; exact ⟨rfl, rfl⟩) hs'
  refine ⟨heff.1, ?_⟩
  intro m d hd
  have hm : m < l := by rw [← heff.1]; exact (List.getElem?_eq_some_iff.1 hd).1
  obtain ⟨d', hd', h1, h2⟩ := heff.2 m db (by simp [hm])
  rw [hd] at hd'
  simp only [Option.some.injEq] at hd'
  subst hd'
  exact ⟨h1, fun j p hp => by simpa using h2 j p hp⟩

/-- A nested ensemble section with two parameters meets the hypotheses. -/
example : paramLeaves [.node "ensemble_simulation" [], .node "ensemble_size" [],
      .node "initial_temperature_stddev" [], .node "sources" [.node "beam_0" [.node "max_power_stddev" []]]] =
    ["initial_temperature", "sources.beam_0.max_power"].map (· ++ "_stddev") ∧
    NoEmptyKeys [.node "sources" [.node "beam_0" [.node "max_power_stddev" []]]] := by
  refine ⟨?_, ?_⟩
  · simp only [paramLeaves, leafKeys, leafKeysNode, List.map]
    decide
  · simp [NoEmptyKeys, Tree.NoEmptyKey]

/-- C27 for the databases (partial: no drawn number is negative): the value of the `j`-th parameter in the database of the
`m`-th member of the group whose first member is `first` is the mean plus the deviation times the random number with index
`first + m + j * g`, where `g` is the total number of members: it depends on the partition only through the global index
`first + m` of the member. -/
theorem C27_member_value_partial (z : ℕ → ℝ) (db : Db) (ens : List Tree) (first l g : ℕ) (hl : 0 < l) (hg : first + l ≤ g)
    (ps : List String) (hkeys : NoEmptyKeys ens) (hleaves : paramLeaves ens = ps.map (· ++ "_stddev")) (hnd : ps.Nodup)
    (hcomp : ∀ p ∈ ps, ∀ q ∈ ps, p ≠ "ensemble." ++ q ++ "_stddev")
    (dbs : List Db) (h : createDatabases z db ens first l g = some dbs)
    (j : ℕ) (p : String) (hj : ps[j]? = some p) (mean stddev : ℝ) (hmean : db p = some mean)
    (hdev : db ("ensemble." ++ p ++ "_stddev") = some stddev)
    (hpos : ∀ i < g, 0 ≤ mean + stddev * z (i + j * g)) (m : ℕ) (hm : m < l) (d : Db) (hd : dbs[m]? = some d) :
    d p = some (mean + stddev * z (first + m + j * g)) := by
  obtain ⟨-, h2⟩ := C28_databases z db ens first l g hl ps hkeys hleaves hnd hcomp dbs h
  obtain ⟨vs, hvs, hval⟩ := (h2 m d hd).2 j p hj
  obtain ⟨v, hv, hv'⟩ := C27_partition_independent_partial z mean stddev first l g j hpos hg
  simp only [sampled, hmean, hdev] at hvs
  rw [hv] at hvs
  simp only [Option.some.injEq] at hvs
  subst hvs
  rw [hval, hv' m hm]

/-- The hypothesis that leaves end in `_stddev` matters: the key `power` is shorter than the erased suffix. -/
example : eraseSuffix "power" = none := by decide

/-! ## C29 -/

/-- Type of a beam (`sources.beam_X.type`; the validator accepts only these). -/
inductive BeamType
  | goldak
  | electronBeam
  | cube
  deriving DecidableEq

/-- What `get_bounding_heat_sources` reads of a beam. -/
structure Beam where
  type : BeamType
  diameter : ℝ
  depth : ℝ

/-- The pairs read for one member, `ensemble_management.cc:68-88`: the second component is read from the key
`diameter`, line 85. -/
def diameterDepth (beams : List Beam) : List (ℝ × ℝ) :=
  (beams.filter fun b => b.type ≠ .cube).map fun b => (b.diameter, b.diameter)

open Classical in
/-- Lines 97-116 for one beam: the maximum (from -1) over all members of all ranks; `f` selects diameter or depth. -/
noncomputable def maxOver (f : ℝ × ℝ → ℝ) (entries : List (List (ℝ × ℝ))) (beam : ℕ) : ℝ :=
  entries.foldl (fun m e => match e[beam]? with
    | some x => if f x > m then f x else m
    | none => m) (-1)

/-- Lines 128-161: the bounding sources; `k` is `bounding_source`. -/
noncomputable def boundingLoop (entries : List (List (ℝ × ℝ))) : ℕ → List Beam → List Beam
  | _, [] => []
  | k, b :: bs =>
    if b.type = .cube then b :: boundingLoop entries k bs
    else ⟨b.type, maxOver Prod.fst entries k, maxOver Prod.snd entries k⟩ :: boundingLoop entries (k + 1) bs

/-- `get_bounding_heat_sources`, `ensemble_management.cc:55-164`; `ranks` are the members of every rank (the `all_gather`),
`first` the first member of the calling rank. -/
noncomputable def boundingSources (ranks : List (List (List Beam))) (first : List Beam) : List Beam :=
  boundingLoop (ranks.flatten.map diameterDepth) 0 first

theorem maxOver_aux (f : ℝ × ℝ → ℝ) (entries : List (List (ℝ × ℝ))) (beam : ℕ) (m0 : ℝ) :
    let g := fun (m : ℝ) (e : List (ℝ × ℝ)) => match e[beam]? with
      | some x => open Classical in if f x > m then f x else m
      | none => m
    m0 ≤ entries.foldl g m0 ∧ ∀ e ∈ entries, ∀ x, e[beam]? = some x → f x ≤ entries.foldl g m0 := by
  intro g
  induction entries generalizing m0 with
  | nil => simp
  | cons e es ih =>
    simp only [List.foldl_cons]
    have hg : m0 ≤ g m0 e ∧ ∀ x, e[beam]? = some x → f x ≤ g m0 e := by
      simp only [g]
      cases he : e[beam]? with
      | none => exact ⟨le_rfl, fun x hx => by cases hx⟩
      | some y =>
        simp only
        split
        · rename_i hgt
          exact ⟨le_of_lt hgt, fun x hx => by cases hx; exact le_rfl⟩
        · rename_i hgt
          exact ⟨le_rfl, fun x hx => by cases hx; exact not_lt.1 hgt⟩
    obtain ⟨h1, h2⟩ := ih (g m0 e)
    refine ⟨hg.1.trans h1, ?_⟩
    intro e' he' x hx
    rcases List.mem_cons.1 he' with rfl | he'
    · exact (hg.2 x hx).trans h1
    · exact h2 e' he' x hx

theorem maxOver_ge (f : ℝ × ℝ → ℝ) (entries : List (List (ℝ × ℝ))) (beam : ℕ) (e : List (ℝ × ℝ)) (he : e ∈ entries)
    (x : ℝ × ℝ) (hx : e[beam]? = some x) : f x ≤ maxOver f entries beam := by
  unfold maxOver
  exact (maxOver_aux f entries beam (-1)).2 e he x hx

theorem boundingLoop_ge (entries : List (List (ℝ × ℝ))) (k : ℕ) (first member : List Beam)
    (htypes : member.map (·.type) = first.map (·.type))
    (hentry : ∀ i x, (diameterDepth member)[i]? = some x → x.1 ≤ maxOver Prod.fst entries (k + i) ∧
      x.2 ≤ maxOver Prod.snd entries (k + i)) :
    List.Forall₂ (fun s b => s.type = b.type ∧ (b.type ≠ .cube → b.diameter ≤ s.diameter ∧ b.diameter ≤ s.depth))
      (boundingLoop entries k first) member := by
  induction first generalizing k member with
  | nil =>
    cases member with
    | nil => exact List.Forall₂.nil
    | cons => simp at htypes
  | cons a as ih =>
    cases member with
    | nil => simp at htypes
    | cons b bs =>
      simp only [List.map_cons, List.cons.injEq] at htypes
      by_cases hc : a.type = .cube
      · have hbc : b.type = .cube := htypes.1.trans hc
        simp only [boundingLoop, if_pos hc]
        refine List.Forall₂.cons ⟨htypes.1.symm, fun h => absurd hbc h⟩ (ih k bs htypes.2 ?_)
        intro i x hx
        apply hentry i x
        rw [diameterDepth, List.filter_cons_of_neg (by simp [hbc])]
        exact hx
      · have hbc : b.type ≠ .cube := fun h => hc (htypes.1 ▸ h)
        have hdd : diameterDepth (b :: bs) = (b.diameter, b.diameter) :: diameterDepth bs := by
          rw [diameterDepth, List.filter_cons_of_pos (by simp [hbc])]; rfl
        simp only [boundingLoop, if_neg hc]
        rw [hdd] at hentry
        refine List.Forall₂.cons ⟨htypes.1.symm, fun _ => ?_⟩ (ih (k + 1) bs htypes.2 ?_)
        · have := hentry 0 (b.diameter, b.diameter) (by simp)
          simpa using this
        · intro i x hx
          have := hentry (i + 1) x (by simpa using hx)
          rwa [show k + (i + 1) = k + 1 + i by ring] at this

/-- C29: on every rank each bounding source has at least the diameter of the same source of every member on every rank, and
its depth is at least that **diameter**.  The claim about the depth is missing. -/
theorem C29_diameter_partial (ranks : List (List (List Beam))) (first : List Beam)
    (htypes : ∀ r ∈ ranks, ∀ m ∈ r, m.map (·.type) = first.map (·.type)) :
    ∀ r ∈ ranks, ∀ m ∈ r,
      List.Forall₂ (fun s b => s.type = b.type ∧ (b.type ≠ .cube → b.diameter ≤ s.diameter ∧ b.diameter ≤ s.depth))
        (boundingSources ranks first) m := by
  intro r hr m hm
  refine boundingLoop_ge _ 0 first m (htypes r hr m hm) ?_
  intro i x hx
  have he : diameterDepth m ∈ ranks.flatten.map diameterDepth :=
    List.mem_map.2 ⟨m, List.mem_flatten.2 ⟨r, hr, hm⟩, rfl⟩
  rw [Nat.zero_add]
  exact ⟨maxOver_ge Prod.fst _ i _ he x hx, maxOver_ge Prod.snd _ i _ he x hx⟩

/-- C29, depth: the bounding source encloses the member's source in depth when no beam is deeper than it is wide.  Missing:
the general case (`C29_depth_refuted`). -/
theorem C29_depth_partial (ranks : List (List (List Beam))) (first : List Beam)
    (htypes : ∀ r ∈ ranks, ∀ m ∈ r, m.map (·.type) = first.map (·.type))
    (hshallow : ∀ r ∈ ranks, ∀ m ∈ r, ∀ b ∈ m, b.depth ≤ b.diameter) :
    ∀ r ∈ ranks, ∀ m ∈ r,
      List.Forall₂ (fun s b => b.type ≠ .cube → b.diameter ≤ s.diameter ∧ b.depth ≤ s.depth)
        (boundingSources ranks first) m := by
  intro r hr m hm
  have h := C29_diameter_partial ranks first htypes r hr m hm
  have hs := hshallow r hr m hm
  generalize boundingSources ranks first = S at h
  clear hm
  induction h with
  | nil => exact List.Forall₂.nil
  | cons hd _ ih =>
    refine List.Forall₂.cons (fun hb => ⟨(hd.2 hb).1, ?_⟩) (ih fun b hb => hs b (by simp [hb]))
    exact (hs _ (by simp)).trans (hd.2 hb).2

/-- C29 is violated in depth: for every member whose beam is deeper than it is wide (and one member) the bounding source is
shallower than the source it should enclose (the depth is read from the key `diameter`). -/
theorem C29_depth_refuted (diameter depth : ℝ) (h0 : 0 < diameter) (h : diameter < depth) :
    ∃ s, boundingSources [[[⟨.goldak, diameter, depth⟩]]] [⟨.goldak, diameter, depth⟩] = [s] ∧ s.depth < depth := by
  refine ⟨⟨.goldak, diameter, diameter⟩, ?_, h⟩
  have h1 : (-1 : ℝ) < diameter := by linarith
  simp [boundingSources, boundingLoop, diameterDepth, maxOver, h1]

/-- Two ranks with two and one members, two beams each of which the first is a cube: hypotheses are met. -/
example : ∀ r ∈ [[[(⟨.cube, 0, 0⟩ : Beam), ⟨.goldak, 2, 1⟩], [⟨.cube, 0, 0⟩, ⟨.goldak, 3, 1⟩]], [[⟨.cube, 0, 0⟩, ⟨.goldak, 5, 1⟩]]],
    ∀ m ∈ r, m.map (·.type) = [(⟨.cube, 0, 0⟩ : Beam), ⟨.goldak, 2, 1⟩].map (·.type) := by
  simp

end Verif.Ensemble
