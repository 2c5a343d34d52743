import Verif.Model.BuildLayers
/-!
# Specification of the layers a build takes
-/
namespace Nxt.Spec
open Dict BuildLayers

/-- The layers which should be composed from a place on: those which are not muted, and only soloed ones if there are
such. -/
def contributing (fromIdx : Nat) (layers : List BLayer) : List BLayer :=
  (layers.drop fromIdx).filter (fun l => !l.muted && (l.soloed || !(layers.drop fromIdx).any (·.soloed)))

/-- The strongest layer which has an entry for a path. -/
def firstEntry (tables : List (Dict Str Val)) (p : Str) : Option Val := tables.findSome? (get? p)

/-- The world node only. -/
def worldOnly (l : Comp.LayerNodes) : Comp.LayerNodes := l.filter (fun e => decide (e.1 = ['/']))

end Nxt.Spec
