import Verif.Model.Switch
/-!
# When a switch of an instance should be on
-/
namespace Parce.Swi

/-- The instances of the blocks that are open after the events. -/
def blocks : List Nat → List Ev → List Nat
  | bs, [] => bs
  | bs, .enter i :: es => blocks (bs ++ [i]) es
  | bs, .exit n :: es => blocks (bs.eraseIdx n) es
  | bs, .look _ :: es => blocks bs es
  | bs, .onClass :: es => blocks bs es
  | bs, .die _ :: es => blocks bs es

end Parce.Swi
