import Verif.Model.TotalVecMap
import Verif.Spec.MapHistory
/-!
# Specification vocabulary for total maps
-/
namespace Verif

/-- Every way the public API can produce a `TotalVecMap`, for all value types (each with its own `==`) at once. -/
inductive BuiltTotalMap {K : Type} [Ord K] : {V : Type} → [BEq V] → TotalVecMap K V → Prop
  | new {V} [BEq V] {m : VecMap K V} (h : BuiltMap m) (d : V) : BuiltTotalMap (TotalVecMap.new m d)
  | constant {V} [BEq V] (v : V) : BuiltTotalMap (TotalVecMap.constant v)
  | deserialized {V E : Type} [BEq V] (seq : List (Except E (K × V))) (d : Except E V) {m : TotalVecMap K V}
      (h : TotalVecMap.deserialize seq d = .ok m) : BuiltTotalMap m
  | combineRef {V} [BEq V] {a b r : TotalVecMap K V} (ha : BuiltTotalMap a) (hb : BuiltTotalMap b) (f : V → V → Call V)
      (h : a.combineRef b f = .ret r) : BuiltTotalMap r
  | mapValues {V W} [BEq V] [BEq W] {m : TotalVecMap K V} {r : TotalVecMap K W} (hm : BuiltTotalMap m) (f : V → Call W)
      (h : m.mapValues f = .ret r) : BuiltTotalMap r

end Verif
