import Mathlib.Data.List.Basic

/-!
# In-place updates inside recorded computations

While torch records a computation, every operation keeps the tensors its derivative needs, together with
their version numbers.  An in-place operation raises the version number of the tensor it changes.
`backward()` compares: if a kept tensor has another version than when it was kept, it raises
`RuntimeError: one of the variables needed for gradient computation has been modified by an inplace
operation`.

The operations of geoopt that contain in-place steps are repeated here, as far as this bookkeeping is
concerned: which tensors are made, kept and changed, in which order.  A tensor is a number (the order of
its creation).  A view (`transpose`, `narrow`, `unsqueeze`) shares the version number of its base and is
the same number here.

The contract of torch that is used: `add`, `sub`, `neg`, `cat`, `sum`, `sign`, a product with a Python
number, indexing: keep nothing; `a * b`, `a / b`, `a @ b` keep `a` and `b`; `abs`, `pow`, `matrix_exp` keep
the argument; `linalg.solve` keeps the matrix and the result; `linalg.qr` keeps both results;
`addcmul(t, a, b)` keeps `a` and `b`; an in-place operation that needs its own argument keeps a copy.

Simplification: all tensors require gradients.
-/

namespace Geoopt.Tape

/-- The number of tensors made so far, their version numbers, and what the derivatives keep: a tensor and
the version it had. -/
structure State where
  next : ℕ
  ver : ℕ → ℕ
  kept : List (ℕ × ℕ)

/-- A computation: a result and the new state. -/
def Rec (α : Type) : Type := State → α × State

instance : Monad Rec where
  pure a := fun s => (a, s)
  bind p f := fun s => f (p s).1 (p s).2

/-- A new tensor, of version `0`. -/
def new : Rec ℕ := fun s =>
  (s.next, { s with next := s.next + 1, ver := Function.update s.ver s.next 0 })

/-- A derivative keeps the tensor `a`. -/
def keep (a : ℕ) : Rec Unit := fun s => ((), { s with kept := (a, s.ver a) :: s.kept })

/-- The tensor `a` is changed in place. -/
def write (a : ℕ) : Rec Unit := fun s =>
  ((), { s with ver := Function.update s.ver a (s.ver a + 1) })

/-- `a @ b`, `a * b`, `a / b`. -/
def mul (a b : ℕ) : Rec ℕ := do keep a; keep b; new

/-- `torch.matrix_exp(a)`, `a ** 0.5`, `a.abs()`. -/
def fn (a : ℕ) : Rec ℕ := do keep a; new

/-- `backward()` does not raise: every kept tensor still has the version it had. -/
def Ok (s : State) : Prop := ∀ p ∈ s.kept, s.ver p.1 = p.2

/-- `utils.py:55-57` `sabs`: `x.abs().add_(eps)`. -/
def sabs (x : ℕ) : Rec ℕ := do
  let a ← fn x
  write a
  pure a

/-- `stiefel.py:152-154`, `175-183` `CanonicalStiefel._transp_follow_one`; with `v = x` it is `retr`. -/
def transpFollowOne (x u v : ℕ) : Rec ℕ := do
  let _ ← mul u x
  let _ ← mul x u
  let _a ← new
  let h ← new
  let _ ← mul h v
  let _rhs ← new
  let lhs ← new
  write lhs
  keep lhs
  let r ← new
  keep r
  pure r

/-- `stiefel.py:247-256` `EuclideanStiefel.expmap`. -/
def stiefelExpmap (x u : ℕ) : Rec ℕ := do
  let _xtu ← mul x u
  let _utu ← mul u u
  let eye ← new
  write eye
  let logw ← new
  let w ← fn logw
  let neg ← new
  let _ ← fn neg
  let _zeros ← new
  let z ← new
  let xu ← new
  let p ← mul xu w
  mul p z

/-- `product.py:315-339` `ProductManifold.dist`: the sum of the squared distances, `clamp_min_` and the
root. -/
def productDist : Rec ℕ := do
  let r ← new
  let copy ← new
  keep copy
  write r
  fn r

/-- `stiefel.py:241-245` `EuclideanStiefel.retr` from `x + u` on: `linalg.qr` keeps `q` and `r`, and
`q *= unflip` changes `q`. -/
def stiefelRetr : Rec ℕ := do
  let _sum ← new
  let q ← new
  let r ← new
  keep q
  keep r
  let _ ← new
  let _ ← new
  let unflip ← new
  let copy ← new
  keep copy
  keep unflip
  write q
  pure q

/-- `lorentz/math.py:491-495` `_egrad2rgrad`: `grad.narrow(-1, 0, 1).mul_(-1)` changes the argument. -/
def lorentzEgrad2rgrad (x k grad : ℕ) : Rec ℕ := do
  write grad
  let _ ← mul x grad
  let i ← new
  let q ← mul x k
  keep i
  keep q
  new

/-- One call of the library, on tensors that exist.  `other` is any operation without in-place steps: it
keeps some tensors and makes one, which it may keep too. -/
inductive Call
  | other (kept : List ℕ) (keepsResult : Bool)
  | sabs (x : ℕ)
  | cayley (x u v : ℕ)
  | stiefelExpmap (x u : ℕ)
  | productDist
  | stiefelRetr
  | lorentzEgrad2rgrad (x k grad : ℕ)

/-- Keeping several tensors. -/
def keepAll : List ℕ → Rec Unit
  | [] => pure ()
  | a :: l => do keep a; keepAll l

/-- What the call does. -/
def Call.run : Call → Rec ℕ
  | .other l b => do
    keepAll l
    let r ← new
    if b then keep r else pure ()
    pure r
  | .sabs x => Tape.sabs x
  | .cayley x u v => transpFollowOne x u v
  | .stiefelExpmap x u => Tape.stiefelExpmap x u
  | .productDist => Tape.productDist
  | .stiefelRetr => Tape.stiefelRetr
  | .lorentzEgrad2rgrad x k g => Tape.lorentzEgrad2rgrad x k g

/-- The tensors a call is given. -/
def Call.args : Call → List ℕ
  | .other l _ => l
  | .sabs x => [x]
  | .cayley x u v => [x, u, v]
  | .stiefelExpmap x u => [x, u]
  | .productDist => []
  | .stiefelRetr => []
  | .lorentzEgrad2rgrad x k g => [x, k, g]

/-- `s'` is reached from `s` by calls that satisfy `P`, each on tensors that exist. -/
inductive Reached (P : State → Call → Prop) : State → State → Prop
  | refl (s : State) : Reached P s s
  | step {s s' : State} (c : Call) (h : Reached P s s') (hc : P s' c) (ha : ∀ a ∈ c.args, a < s'.next) :
      Reached P s (c.run s').2

end Geoopt.Tape
