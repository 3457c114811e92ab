import Verif.Model.StereoManifold
import Verif.Model.Shapes
import Mathlib.Tactic

/-!
# Model of `geoopt/datasets/stereographic.py`

Entries are real numbers.  `numberOfChildren`, `depth`, `numberOfsiblings` and `dim` are natural
numbers (a negative number of children makes `torch.randn` raise; a negative depth fails in line
97).  The draws of the random generator are arguments: `dirs i j` is the `j`-th direction drawn
while the `i`-th node is expanded, `noise i j` the `j`-th sample drawn there.
-/

namespace Geoopt.Dataset
open Geoopt Stereo
variable {n : ℕ}

/-- The constructor's arguments, `stereographic.py:25-43`, and the ball they are used with. -/
structure Config where
  depth : ℕ
  numberOfChildren : ℕ
  numberOfsiblings : ℕ
  distChildren : ℝ
  sigmaSibling : ℝ
  η : ℝ
  dt : DType
  k : ℝ

/-- The random draws. -/
structure Draws (n : ℕ) where
  dirs : ℕ → ℕ → Vec n
  noise : ℕ → ℕ → Vec n

/-- An entry of the queue, `stereographic.py:98`: value, label, depth. -/
structure Node (n : ℕ) where
  value : Vec n
  label : List ℤ
  depth : ℕ

/-- `stereographic.py:59,64` `parent_value / parent_value.norm().clamp_min(1e-15)`. -/
noncomputable def unitOf (v : Vec n) : Vec n := (max (nrm v) 1e-15)⁻¹ • v

/-- `stereographic.py:60,65`: remove the component along the parent. -/
noncomputable def perp (v d : Vec n) : Vec n := d - (unitOf v ⬝ᵥ d) • unitOf v

/-- `stereographic.py:56-66` `get_directions`: in the plane with two children, one draw and its
negative; otherwise one draw per child. -/
noncomputable def getDirections (parent : Vec n) (numberOfChildren : ℕ) (draw : ℕ → Vec n) :
    List (Vec n) :=
  if n = 2 ∧ numberOfChildren = 2 then [perp parent (draw 0), -perp parent (draw 0)]
  else (List.range numberOfChildren).map fun j => perp parent (draw j)

/-- `stereographic.py:68-84` `get_children` with `offspring=True`; `counter` is the next value of
the class counter, which advances by one for every child. -/
noncomputable def getChildren (c : Config) (node : Node n) (draw : ℕ → Vec n) (counter : ℕ) :
    List (Node n) :=
  (getDirections node.value c.numberOfChildren draw).zipIdx.map fun q =>
    { value := M.geodesicUnit true c.η c.dt c.k c.distChildren node.value q.1
      label := node.label.set node.depth ((counter + q.2 : ℕ) : ℤ)
      depth := node.depth + 1 }

/-- `manifold.py:404-448` `random` with a tensor as `mean`. -/
noncomputable def ballRandom (c : Config) (mean : Vec n) (std : ℝ) (noise : Vec n) : Vec n :=
  M.expmap0 true c.η c.dt c.k (fun i => noise i * std / (n : ℝ) ^ (0.5 : ℝ) + mean i)

/-- `stereographic.py:68-74,85-93` `get_children` with `offspring=False`. -/
noncomputable def getClones (c : Config) (node : Node n) (noise : ℕ → Vec n) :
    List (Vec n × List ℤ) :=
  (List.range c.numberOfsiblings).map fun j =>
    (ballRandom c node.value (c.sigmaSibling ^ (0.5 : ℝ)) (noise j), node.label)

/-- The local variables of `bst`, `stereographic.py:97-102`, with the class counter. -/
structure St (n : ℕ) where
  counter : ℕ
  visited : List (Vec n)
  labelsVisited : List (List ℤ)
  clones : List (Vec n × List ℤ)

/-- One pass of the loop body, `stereographic.py:104-117`, for the node popped from the queue: the
children appended to the queue and the new local variables. -/
noncomputable def visit (c : Config) (d : Draws n) (node : Node n) (s : St n) :
    List (Node n) × St n :=
  let i := s.visited.length
  let children := if node.depth < c.depth then getChildren c node (d.dirs i) s.counter else []
  let clones := if node.depth ≤ c.depth then getClones c node (d.noise i) else []
  (children,
    { counter := s.counter + children.length
      visited := s.visited ++ [node.value]
      labelsVisited := s.labelsVisited ++ [node.label]
      clones := s.clones ++ clones })

/-- Number of nodes of a tree with `e` levels. -/
def levels (b : ℕ) : ℕ → ℕ
  | 0 => 0
  | e + 1 => 1 + b * levels b e

/-- What is still to be visited below one queue entry (termination measure). -/
def weight (c : Config) (node : Node n) : ℕ :=
  1 + c.numberOfChildren * levels c.numberOfChildren (c.depth - node.depth)

theorem length_directions (v : Vec n) (b : ℕ) (draw : ℕ → Vec n) :
    (getDirections v b draw).length = b := by
  unfold getDirections
  split_ifs with h
  · simp [h.2]
  · simp

theorem length_children (c : Config) (node : Node n) (draw : ℕ → Vec n) (k : ℕ) :
    (getChildren c node draw k).length = c.numberOfChildren := by
  simp [getChildren, length_directions]

theorem weight_children (c : Config) (d : Draws n) (node : Node n) (s : St n) :
    ((visit c d node s).1.map (weight c)).sum < weight c node := by
  simp only [visit]
  split_ifs with h
  · have hw : ∀ w ∈ (getChildren c node (d.dirs s.visited.length) s.counter).map (weight c),
        w = levels c.numberOfChildren (c.depth - node.depth) := by
      intro w hw
      obtain ⟨x, hx, rfl⟩ := List.mem_map.1 hw
      unfold getChildren at hx
      obtain ⟨q, -, rfl⟩ := List.mem_map.1 hx
      unfold weight
      simp only
      obtain ⟨e, he⟩ : ∃ e, c.depth - node.depth = e + 1 := ⟨c.depth - node.depth - 1, by omega⟩
      rw [he, show c.depth - (node.depth + 1) = e by omega, levels]
    rw [List.sum_eq_card_nsmul _ _ hw, List.length_map, length_children, smul_eq_mul, weight]
    omega
  · simp [weight]

/-- `stereographic.py:103-117`, the loop. -/
noncomputable def bfs (c : Config) (d : Draws n) (queue : List (Node n)) (s : St n) : St n :=
  match queue with
  | [] => s
  | node :: rest => bfs c d (rest ++ (visit c d node s).1) (visit c d node s).2
termination_by (queue.map (weight c)).sum
decreasing_by
  have := weight_children c d node s
  simp only [List.map_append, List.sum_append, List.map_cons, List.sum_cons]
  omega

/-- `torch.cat(rows).reshape(length, width)` for rows of length `width`: the rows again, or
RuntimeError if the numbers of entries differ or there is nothing to concatenate. -/
def catReshape {α : Type} (rows : List α) (length width : ℕ) : Except PyErr (List α) :=
  if rows = [] then .error .runtimeError
  else if rows.length * width = length * width then .ok rows else .error .runtimeError

/-- `stereographic.py:118-121` `int((b ** (depth+1) - 1) / (b - 1))`; `rnd` rounds to double
precision.  (Quotients that overflow a double raise OverflowError; the theorems assume a size that
is exact.) -/
noncomputable def sizeFormula (rnd : ℝ → ℝ) (b depth : ℕ) : Except PyErr ℕ :=
  if b = 1 then .error .zeroDivisionError
  else .ok (⌊rnd (((b : ℝ) ^ (depth + 1) - 1) / ((b : ℝ) - 1))⌋).toNat

/-- The attributes `origin_data`, `origin_labels`, `data`, `labels`, `num_classes`. -/
structure Dataset (n : ℕ) where
  originData : List (Vec n)
  originLabels : List (List ℤ)
  data : List (Vec n)
  labels : List (List ℤ)
  numClasses : ℤ

/-- `stereographic.py:37,96-98`: the root, with its label. -/
def root (c : Config) : Node n :=
  { value := M.origin, label := (List.replicate (c.depth + 1) (-1)).set 0 0, depth := 0 }

/-- `stereographic.py:47` `origin_labels.max()`: RuntimeError when there are no entries. -/
def maxEntry (rows : List (List ℤ)) : Except PyErr ℤ :=
  match rows.flatten with
  | [] => .error .runtimeError
  | a :: l => .ok (l.foldl max a)

/-- `stereographic.py:25-47` the constructor, with `bst` (95-132). -/
noncomputable def init (rnd : ℝ → ℝ) (c : Config) (d : Draws n) : Except PyErr (Dataset n) := do
  let s := bfs c d [root c] ⟨1, [], [], []⟩
  let length ← sizeFormula rnd c.numberOfChildren c.depth
  let images ← catReshape s.visited length n
  let labelsVisited ← catReshape s.labelsVisited length (c.depth + 1)
  let labelsVisited := labelsVisited.map (List.take c.depth)
  let values ← catReshape (s.clones.map Prod.fst) (c.numberOfsiblings * length) n
  let labels ← catReshape (s.clones.map Prod.snd) (c.numberOfsiblings * length) (c.depth + 1)
  let top ← maxEntry labelsVisited
  return ⟨images, labelsVisited, values, labels, top + 1⟩

/-- `stereographic.py:49-50` `__len__`. -/
def Dataset.len (ds : Dataset n) : ℕ := ds.data.length

/-- `stereographic.py:52-54` `__getitem__` for an index in range. -/
def Dataset.getItem (ds : Dataset n) (i : ℕ) : Option (Vec n × List ℤ × ℤ) :=
  match ds.data[i]?, ds.labels[i]? with
  | some v, some (a :: l) => some (v, a :: l, l.foldl max a)
  | _, _ => none

end Geoopt.Dataset
