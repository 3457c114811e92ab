import Verif.Model.Optim
import Verif.Model.OptimSparse

/-! Vocabulary: two ways to distribute the same parameters over parameter groups. -/

namespace Geoopt.Optim

variable {κ H : Type}

/-- The lists `Gs` and `Gs'` of parameter groups give every parameter the same options and the same step counter:
they differ in how the parameters are distributed over groups and in the order of groups and of parameters in
the groups.  No parameter is listed twice, and no group is empty. -/
structure SameGroups (Gs Gs' : List (Group H κ)) : Prop where
  once : (Gs.flatMap Group.params).Nodup
  once' : (Gs'.flatMap Group.params).Nodup
  full : ∀ G ∈ Gs, G.params ≠ []
  full' : ∀ G ∈ Gs', G.params ≠ []
  same : ∀ a h k, (∃ G ∈ Gs, a ∈ G.params ∧ G.hyper = h ∧ G.step = k) ↔
    ∃ G ∈ Gs', a ∈ G.params ∧ G.hyper = h ∧ G.step = k

/-- The same for groups without step counter. -/
structure SameOptions (Gs Gs' : List (H × List κ)) : Prop where
  once : (Gs.flatMap Prod.snd).Nodup
  once' : (Gs'.flatMap Prod.snd).Nodup
  same : ∀ a h, (∃ G ∈ Gs, a ∈ G.2 ∧ G.1 = h) ↔ ∃ G ∈ Gs', a ∈ G.2 ∧ G.1 = h

end Geoopt.Optim
