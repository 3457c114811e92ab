import Verif.Model.Dataset
import Verif.Spec.Dataset
import Verif.Props.C01
import Verif.Props.C05

/-!
# C68: the tree dataset
-/

namespace Geoopt.Dataset
open Geoopt Stereo Spec.Tree
variable {n : ℕ}

/-! ## The breadth-first numbering -/

theorem size_zero (b : ℕ) : size b 0 = 1 := by simp [size]

theorem size_succ (b d : ℕ) : size b (d + 1) = 1 + b * size b d := by
  unfold size
  rw [Finset.sum_range_succ', Finset.mul_sum, add_comm]
  congr 1
  exact Finset.sum_congr rfl fun i _ => by rw [pow_succ]; ring

theorem path_zero (b : ℕ) : path b 0 = [] := by rw [path]

theorem path_succ (b j : ℕ) : path b (j + 1) = path b (j / b) ++ [j + 1] := by rw [path]

theorem depthOf_zero (b : ℕ) : depthOf b 0 = 0 := by rw [depthOf, path_zero]; rfl

theorem depthOf_succ (b j : ℕ) : depthOf b (j + 1) = depthOf b (j / b) + 1 := by
  rw [depthOf, path_succ]; simp [depthOf]

/-- The nodes at distance at most `d` from the root are the first `size b d` ones. -/
theorem depthOf_le {b : ℕ} (hb : 0 < b) : ∀ d i : ℕ, depthOf b i ≤ d ↔ i < size b d
  | 0, 0 => by simp [depthOf_zero, size_zero]
  | 0, i + 1 => by rw [depthOf_succ, size_zero]; omega
  | d + 1, 0 => by rw [depthOf_zero, size_succ]; omega
  | d + 1, i + 1 => by
    rw [depthOf_succ, size_succ, Nat.add_le_add_iff_right, depthOf_le hb d, Nat.div_lt_iff_lt_mul hb,
      mul_comm]
    omega

/-- How many nodes are expanded. -/
def inner (b : ℕ) : ℕ → ℕ
  | 0 => 0
  | d + 1 => size b d

theorem depthOf_lt {b : ℕ} (hb : 0 < b) (d i : ℕ) : depthOf b i < d ↔ i < inner b d := by
  cases d with
  | zero => simp [inner]
  | succ d => rw [Nat.lt_succ_iff, depthOf_le hb, inner]

theorem size_inner (b d : ℕ) : size b d = 1 + b * inner b d := by
  cases d with
  | zero => simp [size_zero, inner]
  | succ d => rw [size_succ, inner]

theorem ids_zero (b : ℕ) : ids b 0 = [0] := by simp [ids]

theorem length_row {w : ℕ} {l : List ℕ} (h : l.length ≤ w) : (row w l).length = w := by
  simp [row]; omega

/-- Writing a child's id into the parent's row gives the child's row. -/
theorem row_set {b w : ℕ} (p j : ℕ) (hp : j / b = p) (h : depthOf b p < w) :
    (row w (ids b p)).set (depthOf b p) ((j + 1 : ℕ) : ℤ) = row w (ids b (j + 1)) := by
  have h1 : ids b (j + 1) = path b p ++ [j + 1] := by
    rw [ids, if_neg (Nat.succ_ne_zero j), path_succ, hp]
  rw [h1]
  by_cases h0 : p = 0
  · subst h0
    rw [ids_zero, depthOf_zero, path_zero]
    simp [row]
  · have h2 : ids b p = path b p := by rw [ids, if_neg h0]
    rw [h2]
    unfold depthOf at h ⊢
    unfold row
    obtain ⟨e, he⟩ : ∃ e, w - (path b p).length = e + 1 := ⟨w - (path b p).length - 1, by omega⟩
    have he2 : w - (path b p ++ [j + 1]).length = e := by simp; omega
    rw [he, he2, List.set_append_right _ _ (by simp)]
    simp [List.replicate_succ]

/-! ## The loop -/

variable (c : Config) (d : Draws n)

/-- The point the `i`-th node is placed at. -/
noncomputable def place (c : Config) (d : Draws n) : ℕ → Vec n
  | 0 => 0
  | j + 1 =>
    M.geodesicUnit true c.η c.dt c.k c.distChildren (place c d (j / c.numberOfChildren))
      ((getDirections (place c d (j / c.numberOfChildren)) c.numberOfChildren
        (d.dirs (j / c.numberOfChildren))).getD (j % c.numberOfChildren) 0)
decreasing_by all_goals exact Nat.lt_succ_of_le (Nat.div_le_self j _)

theorem place_zero : place c d 0 = 0 := by rw [place]

theorem place_succ (j : ℕ) : place c d (j + 1) =
    M.geodesicUnit true c.η c.dt c.k c.distChildren (place c d (j / c.numberOfChildren))
      ((getDirections (place c d (j / c.numberOfChildren)) c.numberOfChildren
        (d.dirs (j / c.numberOfChildren))).getD (j % c.numberOfChildren) 0) := by
  rw [place]

/-- The queue entry of the `i`-th node. -/
noncomputable def entry (i : ℕ) : Node n :=
  { value := place c d i
    label := row (c.depth + 1) (ids c.numberOfChildren i)
    depth := depthOf c.numberOfChildren i }

/-- The samples drawn at the `i`-th node. -/
noncomputable def samples (i : ℕ) : List (Vec n × List ℤ) :=
  (List.range c.numberOfsiblings).map fun j =>
    (ballRandom c (place c d i) (c.sigmaSibling ^ (0.5 : ℝ)) (d.noise i j),
      row (c.depth + 1) (ids c.numberOfChildren i))

/-- The local variables after `i` nodes. -/
noncomputable def stateAt (i : ℕ) : St n :=
  { counter := 1 + c.numberOfChildren * min i (inner c.numberOfChildren c.depth)
    visited := (List.range i).map (place c d)
    labelsVisited := (List.range i).map fun i => row (c.depth + 1) (ids c.numberOfChildren i)
    clones := (List.range i).flatMap (samples c d) }

theorem root_eq : root c = entry c d 0 := by
  unfold root entry
  rw [place_zero, ids_zero, depthOf_zero]
  simp [M.origin, row, List.replicate_succ]

theorem children_eq {i : ℕ} (hb : 0 < c.numberOfChildren)
    (hi : depthOf c.numberOfChildren i < c.depth) :
    getChildren c (entry c d i) (d.dirs i) (1 + c.numberOfChildren * i) =
      (List.range' (1 + c.numberOfChildren * i) c.numberOfChildren).map (entry c d) := by
  apply List.ext_getElem
  · rw [length_children]; simp
  · intro j h1 h2
    have hj : j < c.numberOfChildren := by simpa using h2
    simp only [getChildren, List.getElem_map, List.getElem_zipIdx, List.getElem_range', Nat.zero_add,
      one_mul]
    have hdiv : (c.numberOfChildren * i + j) / c.numberOfChildren = i := by
      rw [Nat.mul_add_div hb, Nat.div_eq_of_lt hj, add_zero]
    have hmod : (c.numberOfChildren * i + j) % c.numberOfChildren = j := by
      rw [Nat.mul_add_mod, Nat.mod_eq_of_lt hj]
    have e : 1 + c.numberOfChildren * i + j = (c.numberOfChildren * i + j) + 1 := by ring
    have hlen := length_directions (place c d i) c.numberOfChildren (d.dirs i)
    rw [e]
    unfold entry
    simp only [Node.mk.injEq]
    refine ⟨?_, ?_, ?_⟩
    · rw [place_succ, hdiv, hmod, List.getD_eq_getElem?_getD, List.getElem?_eq_getElem (by omega)]
      rfl
    · exact row_set i _ hdiv (by omega)
    · rw [depthOf_succ, hdiv]

theorem depthOf_le_of_lt {i : ℕ} (hb : 0 < c.numberOfChildren)
    (hi : i < size c.numberOfChildren c.depth) : depthOf c.numberOfChildren i ≤ c.depth :=
  (depthOf_le hb _ _).2 hi

theorem visit_eq {i : ℕ} (hb : 0 < c.numberOfChildren)
    (hi : i < size c.numberOfChildren c.depth) :
    (visit c d (entry c d i) (stateAt c d i)).2 = stateAt c d (i + 1) ∧
    (visit c d (entry c d i) (stateAt c d i)).1 =
      (List.range' (stateAt c d i).counter
        ((stateAt c d (i + 1)).counter - (stateAt c d i).counter)).map (entry c d) := by
  have hle := depthOf_le_of_lt c hb hi
  have hlen : (stateAt c d i).visited.length = i := by simp [stateAt]
  have hcl : getClones c (entry c d i) (d.noise i) = samples c d i := rfl
  have hcnt : ∀ i, (stateAt c d i).counter =
    1 + c.numberOfChildren * min i (inner c.numberOfChildren c.depth) := fun _ => rfl
  by_cases h : depthOf c.numberOfChildren i < c.depth
  · have hI := (depthOf_lt hb _ _).1 h
    have e1 : (stateAt c d i).counter = 1 + c.numberOfChildren * i := by
      rw [hcnt, min_eq_left hI.le]
    have e2 : (stateAt c d (i + 1)).counter = 1 + c.numberOfChildren * i + c.numberOfChildren := by
      rw [hcnt, min_eq_left hI]; ring
    have hv : visit c d (entry c d i) (stateAt c d i) =
        (getChildren c (entry c d i) (d.dirs i) (1 + c.numberOfChildren * i),
          { counter := 1 + c.numberOfChildren * i + c.numberOfChildren
            visited := (stateAt c d i).visited ++ [place c d i]
            labelsVisited := (stateAt c d i).labelsVisited ++
              [row (c.depth + 1) (ids c.numberOfChildren i)]
            clones := (stateAt c d i).clones ++ samples c d i }) := by
      simp only [visit, hlen, e1]
      rw [if_pos (show (entry c d i).depth < c.depth from h),
        if_pos (show (entry c d i).depth ≤ c.depth from hle), length_children, hcl]
      rfl
    rw [hv]
    constructor
    · simp only [stateAt, List.range_succ, List.map_append, List.map_cons, List.map_nil,
        List.flatMap_append, List.flatMap_cons, List.flatMap_nil, List.append_nil, St.mk.injEq]
      refine ⟨?_, trivial, trivial, trivial⟩
      rw [min_eq_left hI]; ring
    · rw [e2, e1, Nat.add_sub_cancel_left]
      exact children_eq c d hb h
  · have hI : inner c.numberOfChildren c.depth ≤ i := not_lt.1 fun h' => h ((depthOf_lt hb _ _).2 h')
    have e1 : (stateAt c d (i + 1)).counter = (stateAt c d i).counter := by
      rw [hcnt, hcnt, min_eq_right hI, min_eq_right (by omega)]
    have hv : visit c d (entry c d i) (stateAt c d i) =
        ([], { counter := (stateAt c d i).counter
               visited := (stateAt c d i).visited ++ [place c d i]
               labelsVisited := (stateAt c d i).labelsVisited ++
                [row (c.depth + 1) (ids c.numberOfChildren i)]
               clones := (stateAt c d i).clones ++ samples c d i }) := by
      simp only [visit, hlen]
      rw [if_neg (show ¬ (entry c d i).depth < c.depth from h),
        if_pos (show (entry c d i).depth ≤ c.depth from hle), hcl]
      rfl
    rw [hv]
    constructor
    · simp only [stateAt, List.range_succ, List.map_append, List.map_cons, List.map_nil,
        List.flatMap_append, List.flatMap_cons, List.flatMap_nil, List.append_nil, St.mk.injEq]
      refine ⟨?_, trivial, trivial, trivial⟩
      rw [min_eq_right hI, min_eq_right (by omega)]
    · rw [e1]; simp

theorem counter_mono {i : ℕ} : (stateAt c d i).counter ≤ (stateAt c d (i + 1)).counter := by
  change 1 + _ * _ ≤ 1 + _ * _
  have : min i (inner c.numberOfChildren c.depth) ≤ min (i + 1) (inner c.numberOfChildren c.depth) :=
    min_le_min_right _ (Nat.le_succ i)
  have := Nat.mul_le_mul_left c.numberOfChildren this
  omega

theorem lt_counter {i : ℕ} (hb : 0 < c.numberOfChildren) :
    i < (stateAt c d i).counter ↔ i < size c.numberOfChildren c.depth := by
  change i < 1 + _ * _ ↔ _
  rw [size_inner]
  rcases Nat.lt_or_ge i (inner c.numberOfChildren c.depth) with h | h
  · rw [min_eq_left h.le]
    have h1 : i ≤ c.numberOfChildren * i := Nat.le_mul_of_pos_left i hb
    have h2 : inner c.numberOfChildren c.depth ≤ c.numberOfChildren * inner c.numberOfChildren c.depth :=
      Nat.le_mul_of_pos_left _ hb
    omega
  · rw [min_eq_right h]

/-- The loop started after `i` nodes ends after all of them. -/
theorem bfs_eq (hb : 0 < c.numberOfChildren) : ∀ (k i : ℕ),
    i + k = size c.numberOfChildren c.depth →
    bfs c d ((List.range' i ((stateAt c d i).counter - i)).map (entry c d)) (stateAt c d i) =
      stateAt c d (size c.numberOfChildren c.depth)
  | 0, i, h => by
    have h1 : ¬ i < (stateAt c d i).counter := by rw [lt_counter c d hb]; omega
    rw [show (stateAt c d i).counter - i = 0 by omega]
    simp only [List.range'_zero, List.map_nil]
    rw [bfs, ← h, add_zero]
  | k + 1, i, h => by
    have hi : i < size c.numberOfChildren c.depth := by omega
    have h1 : i < (stateAt c d i).counter := (lt_counter c d hb).2 hi
    obtain ⟨m, hm⟩ : ∃ m, (stateAt c d i).counter - i = m + 1 :=
      ⟨(stateAt c d i).counter - i - 1, by omega⟩
    rw [hm, List.range'_succ, List.map_cons, bfs, (visit_eq c d hb hi).1, (visit_eq c d hb hi).2,
      ← List.map_append]
    have hmono := counter_mono c d (i := i)
    have e : List.range' (i + 1) m ++ List.range' (stateAt c d i).counter
        ((stateAt c d (i + 1)).counter - (stateAt c d i).counter) =
        List.range' (i + 1) ((stateAt c d (i + 1)).counter - (i + 1)) := by
      rw [show (stateAt c d i).counter = i + 1 + m by omega, List.range'_append_1]
      congr 1
      omega
    rw [e]
    exact bfs_eq hb k (i + 1) (by omega)

theorem run_eq (hb : 0 < c.numberOfChildren) :
    bfs c d [root c] ⟨1, [], [], []⟩ = stateAt c d (size c.numberOfChildren c.depth) := by
  have := bfs_eq c d hb (size c.numberOfChildren c.depth) 0 (by omega)
  rw [← this]
  have e : (stateAt c d 0).counter = 1 := by simp [stateAt]
  rw [e, root_eq c d]
  simp [stateAt, List.range'_succ]

/-! ## The constructor -/

/-- `rnd` is exact on integers up to `2^53`, as every rounding to double precision is. -/
def Exact53 (rnd : ℝ → ℝ) : Prop := ∀ z : ℕ, z ≤ 2 ^ 53 → rnd z = z

theorem size_closed {b : ℕ} (hb : 2 ≤ b) (dp : ℕ) :
    ((b : ℝ) ^ (dp + 1) - 1) / ((b : ℝ) - 1) = (size b dp : ℝ) := by
  have h1 : (b : ℝ) ≠ 1 := by
    have : (2 : ℝ) ≤ b := by exact_mod_cast hb
    linarith
  rw [size, Nat.cast_sum, ← geom_sum_eq h1]
  simp

theorem sizeFormula_eq {rnd : ℝ → ℝ} (hr : Exact53 rnd) {b dp : ℕ} (hb : 2 ≤ b)
    (hs : size b dp ≤ 2 ^ 53) : sizeFormula rnd b dp = .ok (size b dp) := by
  unfold sizeFormula
  rw [if_neg (by omega), size_closed hb, hr _ hs]
  simp

theorem foldl_max {l : List ℤ} {a m : ℤ} (hm : m ∈ a :: l) (h : ∀ x ∈ a :: l, x ≤ m) :
    l.foldl max a = m := by
  induction l generalizing a with
  | nil => simp at hm; simp [hm]
  | cons b l ih =>
    rw [List.foldl_cons]
    apply ih
    · simp only [List.mem_cons] at hm h ⊢
      rcases hm with rfl | rfl | hm
      · left; rw [max_eq_left (h b (by simp))]
      · left; rw [max_eq_right (h a (by simp))]
      · right; exact hm
    · intro x hx
      simp only [List.mem_cons] at hx h
      rcases hx with rfl | hx
      · exact max_le (h a (by simp)) (h b (by simp))
      · exact h x (by simp [hx])

theorem path_le {b : ℕ} : ∀ (i x : ℕ), x ∈ path b i → 1 ≤ x ∧ x ≤ i := by
  intro i
  induction i using Nat.strong_induction_on with
  | _ i ih =>
    cases i with
    | zero => intro x hx; rw [path_zero] at hx; simp at hx
    | succ j =>
      intro x hx
      rw [path_succ] at hx
      rcases List.mem_append.1 hx with h | h
      · have h1 := Nat.div_le_self j b
        have := ih (j / b) (by omega) x h
        omega
      · simp at h; omega

theorem self_mem_ids (b i : ℕ) : i ∈ ids b i := by
  cases i with
  | zero => simp [ids]
  | succ j => rw [ids, if_neg (Nat.succ_ne_zero j), path_succ]; simp

theorem ids_le {b i x : ℕ} (h : x ∈ ids b i) : x ≤ i := by
  unfold ids at h
  split_ifs at h with h0
  · simp at h; omega
  · exact (path_le _ _ h).2

theorem length_ids {b dp i : ℕ} (hb : 0 < b) (hd : 1 ≤ dp) (hi : i < size b dp) :
    (ids b i).length ≤ dp := by
  unfold ids
  split_ifs
  · simpa using hd
  · exact (depthOf_le hb _ _).2 hi

theorem mem_row {w : ℕ} {l : List ℕ} {z : ℤ} (h : z ∈ row w l) : z = -1 ∨ ∃ x ∈ l, z = (x : ℤ) := by
  unfold row at h
  rcases List.mem_append.1 h with h | h
  · obtain ⟨x, hx, rfl⟩ := List.mem_map.1 h
    exact Or.inr ⟨x, hx, rfl⟩
  · exact Or.inl (List.eq_of_mem_replicate h)

theorem row_max {b w i : ℕ} {a : ℤ} {l : List ℤ} (h : row w (ids b i) = a :: l) :
    l.foldl max a = i := by
  apply foldl_max
  · rw [← h]
    exact List.mem_append_left _ (List.mem_map.2 ⟨i, self_mem_ids b i, rfl⟩)
  · intro x hx
    rw [← h] at hx
    rcases mem_row hx with rfl | ⟨y, hy, rfl⟩
    · omega
    · exact_mod_cast ids_le hy

theorem take_row {w : ℕ} {l : List ℕ} (h : l.length ≤ w) : (row (w + 1) l).take w = row w l := by
  unfold row
  rw [show w + 1 - l.length = (w - l.length) + 1 by omega, List.replicate_succ', ← List.append_assoc]
  rw [List.take_append_of_le_length (by simp; omega)]
  rw [List.take_of_length_le (by simp; omega)]

theorem maxEntry_eq {b dp : ℕ} (hN : 1 ≤ size b dp) (w : ℕ) :
    maxEntry ((List.range (size b dp)).map fun i => row w (ids b i)) = .ok ((size b dp - 1 : ℕ) : ℤ) := by
  have hmem : ((size b dp - 1 : ℕ) : ℤ) ∈
      ((List.range (size b dp)).map fun i => row w (ids b i)).flatten := by
    rw [List.mem_flatten]
    refine ⟨_, List.mem_map.2 ⟨size b dp - 1, List.mem_range.2 (by omega), rfl⟩, ?_⟩
    exact List.mem_append_left _ (List.mem_map.2 ⟨_, self_mem_ids b _, rfl⟩)
  have hle : ∀ x ∈ ((List.range (size b dp)).map fun i => row w (ids b i)).flatten,
      x ≤ ((size b dp - 1 : ℕ) : ℤ) := by
    intro x hx
    obtain ⟨r, hr, hx⟩ := List.mem_flatten.1 hx
    obtain ⟨i, hi, rfl⟩ := List.mem_map.1 hr
    rcases mem_row hx with rfl | ⟨y, hy, rfl⟩
    · omega
    · have := ids_le hy
      have := List.mem_range.1 hi
      exact_mod_cast (by omega : y ≤ size b dp - 1)
  unfold maxEntry
  split
  · rename_i e; rw [e] at hmem; simp at hmem
  · rename_i a l e
    rw [e] at hmem hle
    rw [foldl_max hmem hle]

theorem length_samples (i : ℕ) : (samples c d i).length = c.numberOfsiblings := by simp [samples]

theorem length_all (N : ℕ) :
    ((List.range N).flatMap (samples c d)).length = c.numberOfsiblings * N := by
  rw [List.length_flatMap]
  simp [length_samples, mul_comm]

theorem catReshape_ok {α : Type} {rows : List α} {N w : ℕ} (h : rows.length = N) (hN : 1 ≤ N) :
    catReshape rows N w = .ok rows := by
  unfold catReshape
  rw [if_neg, if_pos (by rw [h])]
  rintro rfl
  simp at h; omega

/-- What the constructor returns: everything it depends on is spelled out. -/
theorem init_eq {rnd : ℝ → ℝ} (hr : Exact53 rnd) (hb : 2 ≤ c.numberOfChildren)
    (hs : 1 ≤ c.numberOfsiblings) (hd : 1 ≤ c.depth)
    (hsz : size c.numberOfChildren c.depth ≤ 2 ^ 53) :
    ∃ ds, init rnd c d = .ok ds ∧
      ds.originData = (List.range (size c.numberOfChildren c.depth)).map (place c d) ∧
      ds.originLabels = (List.range (size c.numberOfChildren c.depth)).map
        (fun i => row c.depth (ids c.numberOfChildren i)) ∧
      ds.data = ((List.range (size c.numberOfChildren c.depth)).flatMap (samples c d)).map Prod.fst ∧
      ds.labels = ((List.range (size c.numberOfChildren c.depth)).flatMap (samples c d)).map Prod.snd ∧
      ds.numClasses = size c.numberOfChildren c.depth := by
  have hb0 : 0 < c.numberOfChildren := by omega
  have hN : 1 ≤ size c.numberOfChildren c.depth := by rw [size_inner]; omega
  have hsN : 1 ≤ c.numberOfsiblings * size c.numberOfChildren c.depth := Nat.mul_pos hs hN
  have hlab : ((List.range (size c.numberOfChildren c.depth)).map
      fun i => row (c.depth + 1) (ids c.numberOfChildren i)).map (List.take c.depth) =
      (List.range (size c.numberOfChildren c.depth)).map
        fun i => row c.depth (ids c.numberOfChildren i) := by
    rw [List.map_map]
    refine List.map_congr_left fun i hi => ?_
    exact take_row (length_ids hb0 hd (List.mem_range.1 hi))
  unfold init
  rw [run_eq c d hb0, sizeFormula_eq hr hb hsz]
  simp only [bind, Except.bind, stateAt]
  rw [catReshape_ok (by simp) hN, catReshape_ok (by simp) hN,
    catReshape_ok (by rw [List.length_map, length_all]) hsN,
    catReshape_ok (by rw [List.length_map, length_all]) hsN]
  simp only [hlab]
  rw [maxEntry_eq hN]
  refine ⟨_, rfl, rfl, rfl, rfl, rfl, ?_⟩
  simp only
  omega

/-! ## C68 -/

/-- **C68, sizes.** For branching `b ≥ 2` and depth at least one there are
`1 + b + ... + b^depth = (b^(depth+1) - 1)/(b - 1)` nodes, one class each, and `numberOfsiblings`
times as many samples. -/
theorem C68_size {rnd : ℝ → ℝ} (hr : Exact53 rnd) (hb : 2 ≤ c.numberOfChildren)
    (hs : 1 ≤ c.numberOfsiblings) (hd : 1 ≤ c.depth)
    (hsz : size c.numberOfChildren c.depth ≤ 2 ^ 53) :
    ∃ ds, init rnd c d = .ok ds ∧
      ds.originData.length = size c.numberOfChildren c.depth ∧
      ds.originLabels.length = size c.numberOfChildren c.depth ∧
      (c.numberOfChildren - 1) * ds.originData.length = c.numberOfChildren ^ (c.depth + 1) - 1 ∧
      ds.len = c.numberOfsiblings * size c.numberOfChildren c.depth ∧
      ds.labels.length = ds.len ∧
      ds.numClasses = size c.numberOfChildren c.depth := by
  obtain ⟨ds, h0, h1, h2, h3, h4, h5⟩ := init_eq c d hr hb hs hd hsz
  have hlen : ds.originData.length = size c.numberOfChildren c.depth := by rw [h1]; simp
  refine ⟨ds, h0, hlen, by rw [h2]; simp, ?_, ?_, ?_, h5⟩
  · rw [hlen, size, mul_comm]
    have := Nat.geomSum_eq hb (c.depth + 1)
    rw [this]
    exact Nat.div_mul_cancel (Nat.sub_one_dvd_pow_sub_one _ _)
  · rw [Dataset.len, h3, List.length_map, length_all]
  · rw [Dataset.len, h3, h4, List.length_map, List.length_map]

/-- **C68, labels.** The label of the `i`-th node lists the ids of the nodes on its path from the
root (excluded) to itself, and `-1` after that; the ids are the breadth-first numbers, so no two
nodes share one. The root carries its own id. -/
theorem C68_labels {rnd : ℝ → ℝ} (hr : Exact53 rnd) (hb : 2 ≤ c.numberOfChildren)
    (hs : 1 ≤ c.numberOfsiblings) (hd : 1 ≤ c.depth)
    (hsz : size c.numberOfChildren c.depth ≤ 2 ^ 53) :
    ∃ ds, init rnd c d = .ok ds ∧ ∀ i < size c.numberOfChildren c.depth,
      ds.originLabels[i]? = some (row c.depth (ids c.numberOfChildren i)) := by
  obtain ⟨ds, h0, -, h2, -⟩ := init_eq c d hr hb hs hd hsz
  refine ⟨ds, h0, fun i hi => ?_⟩
  rw [h2, List.getElem?_map, List.getElem?_range hi]
  rfl

theorem getElem?_flatMap_const {α β : Type*} {f : α → List β} {s : ℕ} (hs : 0 < s)
    (hf : ∀ a, (f a).length = s) : ∀ (l : List α) (i : ℕ),
    (l.flatMap f)[i]? = (l[i / s]?).bind fun a => (f a)[i % s]?
  | [], i => by simp
  | a :: l, i => by
    rw [List.flatMap_cons]
    rcases Nat.lt_or_ge i s with h | h
    · rw [List.getElem?_append_left (by rw [hf]; exact h), Nat.div_eq_of_lt h, Nat.mod_eq_of_lt h]
      simp
    · rw [List.getElem?_append_right (by rw [hf]; exact h), hf, getElem?_flatMap_const hs hf l,
        Nat.div_eq_sub_div hs h, Nat.mod_eq_sub_mod h]
      simp

/-- **C68, samples.** Sample `i` belongs to node `i / numberOfsiblings`: it carries its label, and
the class that `dataset[i]` reports third, the largest id in the label, is that node's own. -/
theorem C68_samples {rnd : ℝ → ℝ} (hr : Exact53 rnd) (hb : 2 ≤ c.numberOfChildren)
    (hs : 1 ≤ c.numberOfsiblings) (hd : 1 ≤ c.depth)
    (hsz : size c.numberOfChildren c.depth ≤ 2 ^ 53) :
    ∃ ds, init rnd c d = .ok ds ∧ ∀ i < ds.len,
      ∃ v, ds.getItem i = some (v,
        row (c.depth + 1) (ids c.numberOfChildren (i / c.numberOfsiblings)),
        ((i / c.numberOfsiblings : ℕ) : ℤ)) := by
  obtain ⟨ds, h0, -, -, h3, h4, -⟩ := init_eq c d hr hb hs hd hsz
  refine ⟨ds, h0, fun i hi => ?_⟩
  have hi' : i < c.numberOfsiblings * size c.numberOfChildren c.depth := by
    rwa [Dataset.len, h3, List.length_map, length_all] at hi
  have hq : i / c.numberOfsiblings < size c.numberOfChildren c.depth := by
    rw [Nat.div_lt_iff_lt_mul (by omega), mul_comm]; exact hi'
  have hm : i % c.numberOfsiblings < c.numberOfsiblings := Nat.mod_lt _ (by omega)
  have key := getElem?_flatMap_const (f := samples c d) (s := c.numberOfsiblings) (by omega)
    (length_samples c d) (List.range (size c.numberOfChildren c.depth)) i
  rw [List.getElem?_range hq, Option.bind_some] at key
  have hsamp : (samples c d (i / c.numberOfsiblings))[i % c.numberOfsiblings]? =
      some (ballRandom c (place c d (i / c.numberOfsiblings)) (c.sigmaSibling ^ (0.5 : ℝ))
        (d.noise (i / c.numberOfsiblings) (i % c.numberOfsiblings)),
        row (c.depth + 1) (ids c.numberOfChildren (i / c.numberOfsiblings))) := by
    unfold samples
    rw [List.getElem?_map, List.getElem?_range hm]
    rfl
  rw [hsamp] at key
  have e1 : ds.data[i]? = some (ballRandom c (place c d (i / c.numberOfsiblings))
      (c.sigmaSibling ^ (0.5 : ℝ)) (d.noise (i / c.numberOfsiblings) (i % c.numberOfsiblings))) := by
    rw [h3, List.getElem?_map, key]; rfl
  have e2 : ds.labels[i]? = some (row (c.depth + 1) (ids c.numberOfChildren (i / c.numberOfsiblings))) := by
    rw [h4, List.getElem?_map, key]; rfl
  have hlen := length_row (w := c.depth + 1) (l := ids c.numberOfChildren (i / c.numberOfsiblings))
    ((length_ids (by omega) hd hq).trans (Nat.le_succ _))
  obtain ⟨a, l, e3⟩ : ∃ a l, row (c.depth + 1) (ids c.numberOfChildren (i / c.numberOfsiblings)) =
      a :: l := by
    cases h : row (c.depth + 1) (ids c.numberOfChildren (i / c.numberOfsiblings)) with
    | nil => rw [h] at hlen; simp at hlen
    | cons a l => exact ⟨a, l, rfl⟩
  refine ⟨ballRandom c (place c d (i / c.numberOfsiblings))
      (c.sigmaSibling ^ (0.5 : ℝ)) (d.noise (i / c.numberOfsiblings) (i % c.numberOfsiblings)), ?_⟩
  unfold Dataset.getItem
  rw [e1, e2, e3]
  simp only
  rw [row_max e3]

/-- Distinct nodes have distinct labels. -/
theorem C68_labels_distinct {b w i j : ℕ} (h : row w (ids b i) = row w (ids b j))
    (hw : 1 ≤ w) (hi : (ids b i).length ≤ w) : i = j := by
  cases e : row w (ids b i) with
  | nil =>
    have := length_row hi
    rw [e] at this; simp at this; omega
  | cons a l =>
    have h1 := row_max e
    have h2 := row_max (h ▸ e)
    rw [h1] at h2
    exact_mod_cast h2

/-- **C68, ancestors.** The ids of a node below the children of the root are those of its parent
followed by its own ... -/
theorem C68_extends_partial {b i : ℕ} (hi : i ≠ 0) (hp : parent b i ≠ 0) :
    ids b i = ids b (parent b i) ++ [i] := by
  obtain ⟨j, rfl⟩ := Nat.exists_eq_succ_of_ne_zero hi
  unfold parent at hp ⊢
  simp only [Nat.succ_eq_add_one, Nat.add_sub_cancel] at hp ⊢
  rw [ids, if_neg (Nat.succ_ne_zero j), path_succ, ids, if_neg hp]

/-- ... but the root's id is overwritten: no other node mentions it, and a child of the root does
not extend the root's label. -/
theorem C68_counterexample_root {b i : ℕ} (hi : i ≠ 0) : 0 ∉ ids b i ∧ ¬ ids b 0 <+: ids b i := by
  have h0 : 0 ∉ ids b i := by
    rw [ids, if_neg hi]
    intro h
    have := (path_le _ _ h).1
    omega
  refine ⟨h0, fun h => h0 (h.subset ?_)⟩
  simp [ids]

/-! ## Arguments that raise -/

/-- One child per node divides by zero. -/
theorem C68_raises_unary {rnd : ℝ → ℝ} (hb : c.numberOfChildren = 1) :
    init rnd c d = .error .zeroDivisionError := by
  simp [init, sizeFormula, hb, bind, Except.bind]

/-- A tree of depth zero has a node and samples, but no label column is left to find the number of
classes in. -/
theorem C68_raises_depth_zero {rnd : ℝ → ℝ} (hr : Exact53 rnd) (hb : 2 ≤ c.numberOfChildren)
    (hs : 1 ≤ c.numberOfsiblings) (hd : c.depth = 0) : init rnd c d = .error .runtimeError := by
  have hb0 : 0 < c.numberOfChildren := by omega
  have hN : size c.numberOfChildren c.depth = 1 := by rw [hd, size_zero]
  unfold init
  rw [run_eq c d hb0, sizeFormula_eq hr hb (by rw [hN]; norm_num), hN]
  simp only [bind, Except.bind, stateAt]
  rw [catReshape_ok (by simp) le_rfl, catReshape_ok (by simp) le_rfl,
    catReshape_ok (by rw [List.length_map, length_all]) (by omega),
    catReshape_ok (by rw [List.length_map, length_all]) (by omega)]
  simp [maxEntry, hd]

/-- No samples per node: nothing to concatenate. -/
theorem C68_raises_no_siblings {rnd : ℝ → ℝ} (hr : Exact53 rnd) (hb : 2 ≤ c.numberOfChildren)
    (hs : c.numberOfsiblings = 0) (hsz : size c.numberOfChildren c.depth ≤ 2 ^ 53) :
    init rnd c d = .error .runtimeError := by
  have hb0 : 0 < c.numberOfChildren := by omega
  have hN : 1 ≤ size c.numberOfChildren c.depth := by rw [size_inner]; omega
  unfold init
  rw [run_eq c d hb0, sizeFormula_eq hr hb hsz]
  simp only [bind, Except.bind, stateAt]
  rw [catReshape_ok (by simp) hN, catReshape_ok (by simp) hN]
  have : (List.range (size c.numberOfChildren c.depth)).flatMap (samples c d) = [] := by
    apply List.eq_nil_of_length_eq_zero
    rw [length_all, hs, zero_mul]
  rw [this]
  simp [catReshape]

/-! ## The points -/

/-- On the Poincaré ball all nodes and samples are valid points. -/
theorem C68_points_valid {rnd : ℝ → ℝ} (hη : 0 ≤ c.η) (hk : c.k < 0) (hr : Exact53 rnd)
    (hb : 2 ≤ c.numberOfChildren) (hs : 1 ≤ c.numberOfsiblings) (hd : 1 ≤ c.depth)
    (hsz : size c.numberOfChildren c.depth ≤ 2 ^ 53) :
    ∃ ds, init rnd c d = .ok ds ∧ (∀ x ∈ ds.originData, Valid c.η c.dt c.k x) ∧
      ∀ x ∈ ds.data, Valid c.η c.dt c.k x := by
  obtain ⟨ds, h0, h1, -, h3, -⟩ := init_eq c d hr hb hs hd hsz
  have key : ∀ z : Vec n, Valid c.η c.dt c.k (project c.η c.dt c.k z) := fun z => by
    rw [valid_iff hk]; exact nrm_project_le hη c.dt z
  refine ⟨ds, h0, fun x hx => ?_, fun x hx => ?_⟩
  · rw [h1] at hx
    obtain ⟨i, -, rfl⟩ := List.mem_map.1 hx
    cases i with
    | zero =>
      rw [place_zero, valid_iff hk, nrm_zero]
      exact (maxNorm_pos hη c.dt).le
    | succ j => rw [place_succ]; exact key _
  · rw [h3] at hx
    obtain ⟨q, hq, rfl⟩ := List.mem_map.1 hx
    obtain ⟨i, -, hq⟩ := List.mem_flatMap.1 hq
    unfold samples at hq
    obtain ⟨j, -, rfl⟩ := List.mem_map.1 hq
    exact key _

/-- Directions are orthogonal to the parent. -/
theorem C68_directions {v : Vec n} (hv : 1e-15 ≤ nrm v) (e : Vec n) : v ⬝ᵥ perp v e = 0 := by
  have hp : 0 < nrm v := lt_of_lt_of_le (by norm_num) hv
  unfold perp unitOf
  rw [max_eq_left hv, dotProduct_sub, dotProduct_smul, smul_dotProduct, dotProduct_smul,
    ← nrm_mul_self]
  simp only [smul_eq_mul]
  field_simp
  ring

theorem dot_getDirections (v : Vec n) (b : ℕ) (draw : ℕ → Vec n) (hv : 1e-15 ≤ nrm v) (j : ℕ) :
    v ⬝ᵥ (getDirections v b draw).getD j 0 = 0 := by
  rw [List.getD_eq_getElem?_getD]
  cases h : (getDirections v b draw)[j]? with
  | none => simp
  | some u =>
    have hu := List.mem_of_getElem? h
    simp only [Option.getD_some]
    unfold getDirections at hu
    split_ifs at hu
    · simp only [List.mem_cons, List.not_mem_nil, or_false] at hu
      rcases hu with rfl | rfl
      · exact C68_directions hv _
      · rw [dotProduct_neg, C68_directions hv, neg_zero]
    · obtain ⟨i, -, rfl⟩ := List.mem_map.1 hu
      exact C68_directions hv _

/-- **C68, distances.** Every node but the root is reached from its parent along a geodesic that
starts orthogonally to the parent, and is at distance `dist_children` from it, if its direction does
not vanish and the library does not have to pull it back into the ball. -/
theorem C68_child_distance {rnd : ℝ → ℝ} (hη : 0 ≤ c.η) (hk : c.k < -1e-8) (ht : 0 ≤ c.distChildren)
    (hlen : c.distChildren * Real.sqrt (|c.k| + c.η) ≤ 16) (hr : Exact53 rnd)
    (hb : 2 ≤ c.numberOfChildren) (hs : 1 ≤ c.numberOfsiblings) (hd : 1 ≤ c.depth)
    (hsz : size c.numberOfChildren c.depth ≤ 2 ^ 53) :
    ∃ ds, init rnd c d = .ok ds ∧ ∀ i < size c.numberOfChildren c.depth, i ≠ 0 → ∃ v w u,
      ds.originData[parent c.numberOfChildren i]? = some v ∧ ds.originData[i]? = some w ∧
      w = M.geodesicUnit true c.η c.dt c.k c.distChildren v u ∧
      (1e-15 ≤ nrm v → v ⬝ᵥ u = 0) ∧
      (1e-15 ≤ nrm u → w = geodesicUnit c.η c.k c.distChildren v u →
        Stereo.dist c.η c.k v w = c.distChildren) := by
  obtain ⟨ds, h0, h1, -⟩ := init_eq c d hr hb hs hd hsz
  have hk0 : c.k < 0 := by have := e8; linarith
  have key : ∀ z : Vec n, Valid c.η c.dt c.k (project c.η c.dt c.k z) := fun z => by
    rw [valid_iff hk0]; exact nrm_project_le hη c.dt z
  have hval : ∀ i, Valid c.η c.dt c.k (place c d i) := by
    intro i
    cases i with
    | zero =>
      rw [place_zero, valid_iff hk0, nrm_zero]
      exact (maxNorm_pos hη c.dt).le
    | succ j => rw [place_succ]; exact key _
  refine ⟨ds, h0, fun i hi hi0 => ?_⟩
  obtain ⟨j, rfl⟩ := Nat.exists_eq_succ_of_ne_zero hi0
  have hp : parent c.numberOfChildren (j + 1) = j / c.numberOfChildren := by simp [parent]
  have hpl : j / c.numberOfChildren < size c.numberOfChildren c.depth :=
    lt_of_le_of_lt (Nat.div_le_self _ _) (by omega)
  refine ⟨place c d (j / c.numberOfChildren), place c d (j + 1), _, ?_, ?_, place_succ c d j,
    fun hv => dot_getDirections _ _ _ hv _, fun hu hw => ?_⟩
  · rw [hp, h1, List.getElem?_map, List.getElem?_range hpl]; rfl
  · rw [h1, List.getElem?_map, List.getElem?_range hi]; rfl
  · rw [hw]
    exact C10_geodesic_unit_speed hη hk ht (hval _) hu hlen

/-- In one dimension every direction vanishes below the root's children, so grandchildren of the
root sit on their parents (or where projection puts them). -/
theorem C68_counterexample_line {v : Vec 1} (hv : 1e-15 ≤ nrm v) (e : Vec 1) (t : ℝ) :
    perp v e = 0 ∧ geodesicUnit c.η c.k t v (perp v e) = v := by
  have h := C68_directions hv e
  have hv0 : v 0 ≠ 0 := by
    intro h0
    have : v = 0 := by funext i; rw [Subsingleton.elim i 0, h0]; rfl
    rw [this, nrm_zero] at hv
    norm_num at hv
  have hz : perp v e = 0 := by
    funext i
    rw [Subsingleton.elim i 0]
    simp only [dotProduct, Finset.univ_unique, Fin.default_eq_zero, Finset.sum_singleton] at h
    exact (mul_eq_zero.1 h).resolve_left hv0
  refine ⟨hz, ?_⟩
  rw [hz]
  simp [geodesicUnit, C03_add_zero]

/-- The samples are not spread around their node: `random` reads the node as a tangent vector at
the origin, so even without noise the sample is `expmap0(node)`. -/
theorem C68_counterexample_sample_centre (v noise : Vec n) :
    ballRandom c v 0 noise = M.expmap0 true c.η c.dt c.k v := by
  simp [ballRandom]

/-- The hypotheses are met: two children per node, depth three, fifteen nodes. -/
example : size 2 3 = 15 ∧ (15 : ℕ) ≤ 2 ^ 53 ∧ Exact53 id ∧ path 2 13 = [2, 6, 13] := by
  refine ⟨by decide, by norm_num, fun z _ => rfl, ?_⟩
  rw [show (13 : ℕ) = 12 + 1 from rfl, path_succ, show 12 / 2 = 5 + 1 from rfl, path_succ,
    show 5 / 2 = 1 + 1 from rfl, path_succ, show 1 / 2 = 0 from rfl, path_zero]
  rfl

end Geoopt.Dataset
