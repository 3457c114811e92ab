import Lean.Meta.Tactic.Simp.RegisterCommand

/-- Rules for the sizes of the tensors that the torch operations of `Model/Axis.lean` return. -/
register_simp_attr tshape
