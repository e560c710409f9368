import Verif.Model.TotalVecMap
/-!
# Model of the lookups that take a borrowed form of the key

`get`, `get_mut` and `[]` accept `&Q` for any `Q: Ord + ?Sized` with `K: Borrow<Q>`. The two traits are user code: nothing forces `borrow` to preserve the order of the keys
(the documentation of `Borrow` only asks for it), so `borrow` and the order of `Q` are arbitrary parameters here. (`AbstractBTreeMap::get`, btree_map.rs:33-39 and 47-53, passes the call on to std and rkyv.)
-/
namespace Verif
variable {K V Q : Type _} [Ord Q]

/-- `AbstractVecMap::get` (vec_map.rs:47-58) with a borrowed key; `elements[index]` would panic out of bounds -/
def VecMap.getQ (borrow : K → Q) (m : VecMap K V) (key : Q) : Call (Option V) :=
  match binarySearchBy (fun p => compare (borrow p.1) key) m.entries with
  | .found i =>
    match m.entries[i]? with
    | some e => .ret (some e.2)
    | none => .panic
  | .notFound _ => .ret none

/-- a write through `get_mut` (vec_map.rs:758-768) with a borrowed key: `if let Some(v) = m.get_mut(q) { *v = w(v) }`; the result says whether there was something to write to -/
def VecMap.updateMutQ (borrow : K → Q) (m : VecMap K V) (key : Q) (w : V → V) : Call (VecMap K V × Bool) :=
  match binarySearchBy (fun p => compare (borrow p.1) key) m.entries with
  | .found i =>
    match m.entries[i]? with
    | some e => .ret (⟨m.entries.set i (e.1, w e.2)⟩, true)
    | none => .panic
  | .notFound _ => .ret (m, false)

/-- `Index<&Q> for TotalVecMap` (total_vec_map.rs:263-274) -/
def TotalVecMap.indexQ (borrow : K → Q) (t : TotalVecMap K V) (key : Q) : Call V :=
  match t.map.getQ borrow key with
  | .ret o => .ret (o.getD t.default)
  | .panic => .panic

end Verif
