import Verif.Model.Fused

/-! What the methods that move and transport at once should return. -/

namespace Geoopt.Fused

/-- The fused methods return what the separate ones return; and following `retr` (`expmap`)
is transporting to the point it reaches, where the class has a `transp`. -/
structure Agree {X : Type*} (o : Ops X) : Prop where
  retr : ∀ x u v, o.retrTransp x u v = (o.retr x u, o.transpFollowRetr x u v)
  expmap : ∀ x u v, o.expmapTransp x u v = (o.expmap x u, o.transpFollowExpmap x u v)
  follow : ∀ t, o.transp = some t → ∀ x u v,
    o.transpFollowRetr x u v = t x (o.retr x u) v ∧
    o.transpFollowExpmap x u v = t x (o.expmap x u) v

end Geoopt.Fused
