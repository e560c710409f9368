import Verif.Model.VecMap
/-!
# Model of /repo/src/total_vec_map.rs

`TotalVecMap(VecMap, V)`: a `VecMap` plus a default value. `==` on values is `BEq V` (Rust `Eq`). User functions return a `Call`, so a
panicking `+` or `/` is covered; a by-reference operation that panics has no result.
-/
namespace Verif

/-- `struct TotalVecMap(VecMap<A>, V)` (total_vec_map.rs:27) -/
structure TotalVecMap (K V : Type _) where
  map : VecMap K V
  default : V

/-- `std::cmp::max(a, b)`: the second argument unless the first is greater (used at total_vec_map.rs:234) -/
def rustMax {V : Type _} [Ord V] (a b : V) : V := if compare a b = .gt then a else b
/-- `std::cmp::min(a, b)`: the first argument unless it is greater (used at total_vec_map.rs:237) -/
def rustMin {V : Type _} [Ord V] (a b : V) : V := if compare a b = .gt then b else a

/-- the operators of the value type (`Add`, `Sub`, `Mul`, `Div`, `Neg` bounds at total_vec_map.rs:143-183); each may panic (overflow,
division by zero) -/
class RustOps (V : Type _) where
  add : V → V → Call V
  sub : V → V → Call V
  mul : V → V → Call V
  div : V → V → Call V
  neg : V → Call V

namespace TotalVecMap
variable {K V W : Type _} [Ord K]

/-- `new` (total_vec_map.rs:93-104): drops the entries that map to the default -/
def new [BEq V] (map : VecMap K V) (default : V) : TotalVecMap K V :=
  ⟨(map.retain (fun _ e => .ret ((), e.2 != default)) ()).1, default⟩
/-- `constant`, `From<V>`, `Default`, `Bounded`, `zero`, `one` (total_vec_map.rs:87-91, 107-110, 128-132, 134-141, 194-196, 203-205) -/
def constant (value : V) : TotalVecMap K V := ⟨VecMap.empty, value⟩
/-- `non_default_mappings` (total_vec_map.rs:113-115) -/
def nonDefaultMappings (m : TotalVecMap K V) : VecMap K V := m.map
/-- `Index` (total_vec_map.rs:263-274): `get(key).unwrap_or(&default)` -/
def index (m : TotalVecMap K V) (key : K) : V := (m.map.get key).getD m.default

/-- `combine_ref` (total_vec_map.rs:213-229) -/
def combineRef [BEq V] (a b : TotalVecMap K V) (f : V → V → Call V) : Call (TotalVecMap K V) :=
  match f a.default b.default with
  | .panic => .panic
  | .ret rd =>
    let r := a.map.outerJoin b.map (fun arg =>
      let r := match arg with
        | .left _ v => f v b.default
        | .right _ w => f a.default w
        | .both _ v w => f v w
      match r with
      | .panic => .panic
      | .ret r => .ret (if r != rd then some r else none))
    match r.2 with
    | .panic => .panic
    | _ => .ret ⟨r.1, rd⟩
/-- `Add` (total_vec_map.rs:143-151) -/
def add [BEq V] [RustOps V] (a b : TotalVecMap K V) : Call (TotalVecMap K V) := a.combineRef b (fun x y => RustOps.add x y)
/-- `Sub` (total_vec_map.rs:153-161) -/
def sub [BEq V] [RustOps V] (a b : TotalVecMap K V) : Call (TotalVecMap K V) := a.combineRef b (fun x y => RustOps.sub x y)
/-- `Mul` (total_vec_map.rs:173-181) -/
def mul [BEq V] [RustOps V] (a b : TotalVecMap K V) : Call (TotalVecMap K V) := a.combineRef b (fun x y => RustOps.mul x y)
/-- `Div` (total_vec_map.rs:183-191) -/
def div [BEq V] [RustOps V] (a b : TotalVecMap K V) : Call (TotalVecMap K V) := a.combineRef b (fun x y => RustOps.div x y)
/-- `supremum` (total_vec_map.rs:233-235) -/
def supremum [BEq V] [Ord V] (a b : TotalVecMap K V) : Call (TotalVecMap K V) := a.combineRef b (fun x y => .ret (rustMax x y))
/-- `infimum` (total_vec_map.rs:236-238) -/
def infimum [BEq V] [Ord V] (a b : TotalVecMap K V) : Call (TotalVecMap K V) := a.combineRef b (fun x y => .ret (rustMin x y))

/-- the `filter_map(..).collect()` of `map_values` (total_vec_map.rs:247-258) -/
def mapEntries [BEq W] (f : V → Call W) (d : W) : List (K × V) → Call (List (K × W))
  | [] => .ret []
  | e :: es =>
    match f e.2 with
    | .panic => .panic
    | .ret w =>
      match mapEntries f d es with
      | .panic => .panic
      | .ret r => .ret (if w != d then (e.1, w) :: r else r)
/-- `map_values` (total_vec_map.rs:242-260). (Rust evaluates the default first, then the entries in order; a
panic anywhere means no result.) -/
def mapValues [BEq W] (m : TotalVecMap K V) (f : V → Call W) : Call (TotalVecMap K W) :=
  match f m.default with
  | .panic => .panic
  | .ret d =>
    match mapEntries f d m.map.entries with
    | .panic => .panic
    | .ret r => .ret ⟨⟨r⟩, d⟩
/-- `Neg` (total_vec_map.rs:163-171) -/
def neg [BEq V] [RustOps V] (m : TotalVecMap K V) : Call (TotalVecMap K V) := m.mapValues (fun a => RustOps.neg a)
/-- `is_zero` (total_vec_map.rs:197-199) and `is_one` (206-208), for the corresponding test on values -/
def isConst (test : V → Bool) (m : TotalVecMap K V) : Bool := m.map.isEmpty && test m.default

/-- `PartialEq` (total_vec_map.rs:67-71): compares the mappings only -/
def eq [BEq V] (a b : TotalVecMap K V) : Bool := a.map.eq b.map
/-- `Ord`, `PartialOrd` (total_vec_map.rs:75-85): mappings, then default -/
def cmp [Ord V] (a b : TotalVecMap K V) : Ordering := (a.map.cmp b.map).then (compare a.default b.default)
/-- `Hash` (total_vec_map.rs:61-65): the data fed to the hasher, that of the mappings only -/
def hashFeed {H : Type _} (h : K × V → H) (a : TotalVecMap K V) : Nat × List H := a.map.hashFeed h
/-- `Serialize` (total_vec_map.rs:29-38) -/
def serialize (m : TotalVecMap K V) : List (K × V) × V := (m.map.serialize, m.default)
/-- `Deserialize` (total_vec_map.rs:40-50) -/
def deserialize [BEq V] {E : Type _} (seq : List (Except E (K × V))) (d : Except E V) : Except E (TotalVecMap K V) :=
  match VecMap.visitMap seq with
  | .error e => .error e
  | .ok m => match d with
    | .error e => .error e
    | .ok d => .ok (new m d)

end TotalVecMap
end Verif
