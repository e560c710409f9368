import Verif.Model.VecSet
import Verif.Model.VecMap
/-! Model of the construction macros (src/macros.rs). -/
namespace Verif
variable {T K V : Type _} [Ord T] [Ord K]

/-- `vecset! { x1, …, xn }` (macros.rs:3-12): `VecSet::default()`, then one `insert` per expression, in order; the result of
`insert` is discarded. The empty form `vecset! {}` is the empty list. -/
def vecsetMacro (items : List T) : VecSet T := items.foldl (fun s x => (s.insert x).1) VecSet.empty

/-- `vecmap! { k1 => v1, … }` (macros.rs:16-27): `VecMap::default()`, then one `insert` per arrow, in order -/
def vecmapMacro (items : List (K × V)) : VecMap K V := items.foldl (fun m e => (m.insert e.1 e.2).1) VecMap.empty

end Verif
