import Verif.Model.VecSet
import Verif.Model.VecMap
/-! Model of the multimaps of examples/multimap.rs, built from `VecMap` and `VecSet`. -/
namespace Verif
variable {K V : Type} [Ord K] [Ord V]

/-- the closure `|a, b| &a | &b` (multimap.rs:14, 53, 54) -/
def unionClosure (a b : VecSet V) : Call (VecSet V) :=
  match a.union b with
  | (_, .panic) => .panic
  | (r, _) => .ret r

/-- `struct Multimap(VecMap1<K, VecSet2<V>>)` (multimap.rs:6) -/
structure Multimap (K V : Type) where
  index : VecMap K (VecSet V)

namespace Multimap
/-- `Default` (multimap.rs:18-22) -/
def empty : Multimap K V := ⟨VecMap.empty⟩
/-- `single` (multimap.rs:9-11): collects a vector of one pair -/
def single (k : K) (v : V) : Multimap K V := ⟨VecMap.fromIter [(k, VecSet.single v)]⟩
/-- `combine_with` (multimap.rs:13-15) -/
def combineWith (m rhs : Multimap K V) : Multimap K V × Flow :=
  (⟨(m.index.combineWith rhs.index unionClosure).1⟩, (m.index.combineWith rhs.index unionClosure).2)
/-- the loop of `from_iter`; a panic ends it -/
def fromIterGo (m : Multimap K V) : List (K × V) → Multimap K V × Flow
  | [] => (m, .cont)
  | e :: l =>
    match m.combineWith (single e.1 e.2) with
    | (m', .panic) => (m', .panic)
    | (m', _) => fromIterGo m' l
/-- `from_iter` (multimap.rs:24-32) -/
def fromIter (l : List (K × V)) : Multimap K V × Flow := fromIterGo empty l
end Multimap

/-- `struct BiMultimap(VecMap1<K, VecSet2<V>>, VecMap1<V, VecSet2<K>>)` (multimap.rs:35) -/
structure BiMultimap (K V : Type) where
  fwd : VecMap K (VecSet V)
  bwd : VecMap V (VecSet K)

namespace BiMultimap
/-- `Default` (multimap.rs:37-41) -/
def empty : BiMultimap K V := ⟨VecMap.empty, VecMap.empty⟩
/-- `single` (multimap.rs:44-51) -/
def single (k : K) (v : V) : BiMultimap K V :=
  ⟨VecMap.fromIter [(k, VecSet.single v)], VecMap.fromIter [(v, VecSet.single k)]⟩
/-- `combine_with` (multimap.rs:52-55): both indices, one after the other; a panic in the first leaves the second untouched -/
def combineWith (m rhs : BiMultimap K V) : BiMultimap K V × Flow :=
  match m.fwd.combineWith rhs.fwd unionClosure with
  | (f, .panic) => (⟨f, m.bwd⟩, .panic)
  | (f, _) => (⟨f, (m.bwd.combineWith rhs.bwd unionClosure).1⟩, (m.bwd.combineWith rhs.bwd unionClosure).2)
/-- the loop of `from_iter` -/
def fromIterGo (m : BiMultimap K V) : List (K × V) → BiMultimap K V × Flow
  | [] => (m, .cont)
  | e :: l =>
    match m.combineWith (single e.1 e.2) with
    | (m', .panic) => (m', .panic)
    | (m', _) => fromIterGo m' l
/-- `from_iter` (multimap.rs:58-68) -/
def fromIter (l : List (K × V)) : BiMultimap K V × Flow := fromIterGo empty l
end BiMultimap

end Verif
