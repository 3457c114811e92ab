import Verif.Model.Shapes

/-! A training loop: before every step the gradients are written, then the optimiser takes a step; an
exception ends it. -/

namespace Geoopt

/-- `n` rounds of `backward(); step()`, started at `o`.  `feed i` writes the gradients of round `i`. -/
def train {O : Type} (feed : ℕ → O → O) (step : O → O × Option PyErr) : ℕ → O → O × Option PyErr
  | 0, o => (o, none)
  | n + 1, o =>
    match train feed step n o with
    | (o', some e) => (o', some e)
    | (o', none) => step (feed n o')

end Geoopt
