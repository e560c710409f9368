import Verif.Model.SetClone
import Verif.Model.TotalVecSet
import Verif.Model.TotalVecMap
import Verif.Model.BTreeEffects
/-!
# Clones of containers, total sets and maps, and the joins of `BTreeMap`, with an untrusted `Clone`
-/
namespace Verif

/-! ### `Clone` of the containers -/

/-- `SmallVec::clone`: `SmallVec::from(self.as_slice())`, which clones the elements in order; a panic drops the clones made so far -/
def cloneAll {A S : Type _} (cl : A → S → Call A × S) (l : List A) (c : S) : Call (List A) × S :=
  match pushAllC cl ([], c) l with
  | ((_, c), .panic) => (.panic, c)
  | ((r, c), _) => (.ret r, c)

/-- then wrap the clone -/
def Call.wrapC {X Y S : Type _} (wrap : X → Y) : Call X × S → Call Y × S
  | (.panic, c) => (.panic, c)
  | (.ret x, c) => (.ret (wrap x), c)

/-- `Clone` of a pair: the key first (std) -/
def clonePair {K V S : Type _} (ck : K → S → Call K × S) (cv : V → S → Call V × S) (e : K × V) (c : S) : Call (K × V) × S :=
  match ck e.1 c with
  | (.panic, c) => (.panic, c)
  | (.ret k, c) =>
    match cv e.2 c with
    | (.panic, c) => (.panic, c)
    | (.ret v, c) => (.ret (k, v), c)

/-- `Clone for VecSet` (vec_set.rs:225-229) -/
def VecSet.cloneCl {T S : Type _} (a : VecSet T) (cl : T → S → Call T × S) (c : S) : Call (VecSet T) × S :=
  Call.wrapC VecSet.mk (cloneAll cl a.elems c)

/-- `Clone for VecMap` (vec_map.rs:147-151) -/
def VecMap.cloneCl {K V S : Type _} (a : VecMap K V) (ck : K → S → Call K × S) (cv : V → S → Call V × S) (c : S) : Call (VecMap K V) × S :=
  Call.wrapC VecMap.mk (cloneAll (clonePair ck cv) a.entries c)

namespace TotalVecSet
variable {T S : Type _} [Ord T]

/-- `TotalVecSet::new` on a result that may be a panic (total_vec_set.rs:83-85) -/
def newCl (r : Call (VecSet T) × S) (negated : Bool) : Call (TotalVecSet T) × S := Call.wrapC (fun e => ⟨e, negated⟩) r

/-- `Clone for TotalVecSet` (total_vec_set.rs:52-59) -/
def cloneCl (a : TotalVecSet T) (cl : T → S → Call T × S) (c : S) : Call (TotalVecSet T) × S := newCl (a.elements.cloneCl cl c) a.negated

/-- `BitAnd for &TotalVecSet` (total_vec_set.rs:173-187) -/
def bitandCl (a b : TotalVecSet T) (cl : T → S → Call T × S) (c : S) : Call (TotalVecSet T) × S :=
  match a.negated, b.negated with
  | false, false => newCl (a.elements.intersectionCl b.elements cl c) false
  | false, true => newCl (a.elements.differenceCl b.elements cl c) false
  | true, false => newCl (b.elements.differenceCl a.elements cl c) false
  | true, true => newCl (b.elements.unionCl a.elements cl c) true
/-- `BitOr for &TotalVecSet` (total_vec_set.rs:218-232) -/
def bitorCl (a b : TotalVecSet T) (cl : T → S → Call T × S) (c : S) : Call (TotalVecSet T) × S :=
  match a.negated, b.negated with
  | false, false => newCl (a.elements.unionCl b.elements cl c) false
  | false, true => newCl (b.elements.differenceCl a.elements cl c) true
  | true, false => newCl (a.elements.differenceCl b.elements cl c) true
  | true, true => newCl (b.elements.intersectionCl a.elements cl c) true
/-- `BitXor for &TotalVecSet` (total_vec_set.rs:263-268) -/
def bitxorCl (a b : TotalVecSet T) (cl : T → S → Call T × S) (c : S) : Call (TotalVecSet T) × S :=
  newCl (a.elements.symmetricDifferenceCl b.elements cl c) (a.negated ^^ b.negated)
/-- `Sub for &TotalVecSet` (total_vec_set.rs:277-292) -/
def subCl (a b : TotalVecSet T) (cl : T → S → Call T × S) (c : S) : Call (TotalVecSet T) × S :=
  match a.negated, b.negated with
  | false, false => newCl (a.elements.differenceCl b.elements cl c) false
  | false, true => newCl (a.elements.intersectionCl b.elements cl c) false
  | true, false => newCl (a.elements.unionCl b.elements cl c) true
  | true, true => newCl (b.elements.differenceCl a.elements cl c) false
/-- `Not for &TotalVecSet` (total_vec_set.rs:323-328) -/
def notCl (a : TotalVecSet T) (cl : T → S → Call T × S) (c : S) : Call (TotalVecSet T) × S := newCl (a.elements.cloneCl cl c) (!a.negated)

end TotalVecSet

namespace TotalVecMap
variable {K V W S : Type _} [Ord K]

/-- `Clone for TotalVecMap` (total_vec_map.rs:55-59): the mappings, then the default -/
def cloneCl (a : TotalVecMap K V) (ck : K → S → Call K × S) (cv : V → S → Call V × S) (c : S) : Call (TotalVecMap K V) × S :=
  match a.map.cloneCl ck cv c with
  | (.panic, c) => (.panic, c)
  | (.ret m, c) =>
    match cv a.default c with
    | (.panic, c) => (.panic, c)
    | (.ret d, c) => (.ret ⟨m, d⟩, c)

/-- `combine_ref` (total_vec_map.rs:213-229) -/
def combineRefCl [BEq V] (a b : TotalVecMap K V) (cl : K → S → Call K × S) (f : V × V → S → Call V × S) (c : S) : Call (TotalVecMap K V) × S :=
  match f (a.default, b.default) c with
  | (.panic, c) => (.panic, c)
  | (.ret rd, c) => Call.wrapC (fun m => ⟨m, rd⟩) (a.map.outerJoinCl b.map cl (combineArgE a.default b.default rd f) c)

/-- the `filter_map(..).collect()` of `map_values` (total_vec_map.rs:247-258) -/
def mapEntriesCl [BEq W] (cl : K → S → Call K × S) (f : V → S → Call W × S) (d : W) : List (K × V) → List (K × W) → S → Call (List (K × W)) × S
  | [], r, c => (.ret r, c)
  | e :: es, r, c =>
    match f e.2 c with
    | (.panic, c) => (.panic, c)
    | (.ret w, c) =>
      if w != d then
        match cl e.1 c with
        | (.panic, c) => (.panic, c)
        | (.ret k, c) => mapEntriesCl cl f d es (r ++ [(k, w)]) c
      else mapEntriesCl cl f d es r c
/-- `map_values` (total_vec_map.rs:242-260) -/
def mapValuesCl [BEq W] (m : TotalVecMap K V) (cl : K → S → Call K × S) (f : V → S → Call W × S) (c : S) : Call (TotalVecMap K W) × S :=
  match f m.default c with
  | (.panic, c) => (.panic, c)
  | (.ret d, c) => Call.wrapC (fun r => ⟨⟨r⟩, d⟩) (mapEntriesCl cl f d m.map.entries [] c)

/-- `supremum` (total_vec_map.rs:233-235): `cmp::max(a, b).clone()` -/
def supremumCl [BEq V] [Ord V] (a b : TotalVecMap K V) (ck : K → S → Call K × S) (cv : V → S → Call V × S) (c : S) : Call (TotalVecMap K V) × S :=
  a.combineRefCl b ck (fun p => cv (rustMax p.1 p.2)) c
/-- `infimum` (total_vec_map.rs:236-238): `cmp::min(a, b).clone()` -/
def infimumCl [BEq V] [Ord V] (a b : TotalVecMap K V) (ck : K → S → Call K × S) (cv : V → S → Call V × S) (c : S) : Call (TotalVecMap K V) × S :=
  a.combineRefCl b ck (fun p => cv (rustMin p.1 p.2)) c

end TotalVecMap

namespace BTreeMap
variable {K V W R S : Type _} [Ord K]

/-- `if let Some(r) = f(..) { res.insert(k.clone(), r) }` (btree_map.rs:74-76, 81-83, 97-99, 112-114, 130-132, 138-140, 215-217) -/
def insertCloned (cl : K → S → Call K × S) (res : BTreeMap K R) (k : K) (r : Call (Option R) × S) : BTreeMap K R × Bool × S :=
  match r with
  | (.panic, s) => (res, true, s)
  | (.ret none, s) => (res, false, s)
  | (.ret (some x), s) =>
    match cl k s with
    | (.panic, s) => (res, true, s)
    | (.ret k, s) => (res.insert k x, false, s)

/-- `outer_join` (btree_map.rs:63-87) -/
def outerJoinCl (a : BTreeMap K V) (b : BTreeMap K W) (cl : K → S → Call K × S) (f : OuterJoinArg K V W → S → Call (Option R) × S) (s : S) :
    Call (BTreeMap K R) × S :=
  match forEachE (fun res (e : K × V) s => insertCloned cl res e.1 (f (outerArgA b e) s)) a.entries new s with
  | (_, true, s) => (.panic, s)
  | (res, false, s) => returned (forEachE (fun res (e : K × W) s =>
      if (a.get e.1).isNone then insertCloned cl res e.1 (f (.right e.1 e.2) s) else (res, false, s)) b.entries res s)
/-- `left_join` (btree_map.rs:89-102) -/
def leftJoinCl (a : BTreeMap K V) (b : BTreeMap K W) (cl : K → S → Call K × S) (f : K × V × Option W → S → Call (Option R) × S) (s : S) :
    Call (BTreeMap K R) × S :=
  returned (forEachE (fun res (e : K × V) s => insertCloned cl res e.1 (f (e.1, e.2, b.get e.1) s)) a.entries new s)
/-- `right_join` (btree_map.rs:104-117) -/
def rightJoinCl (a : BTreeMap K V) (b : BTreeMap K W) (cl : K → S → Call K × S) (f : K × Option V × W → S → Call (Option R) × S) (s : S) :
    Call (BTreeMap K R) × S :=
  returned (forEachE (fun res (e : K × W) s => insertCloned cl res e.1 (f (e.1, a.get e.1, e.2) s)) b.entries new s)
/-- `inner_join` (btree_map.rs:119-145) -/
def innerJoinCl (a : BTreeMap K V) (b : BTreeMap K W) (cl : K → S → Call K × S) (f : K × V × W → S → Call (Option R) × S) (s : S) :
    Call (BTreeMap K R) × S :=
  if a.sizeHint < b.sizeHint then
    returned (forEachE (fun res (e : K × V) s => match b.get e.1 with
      | some w => insertCloned cl res e.1 (f (e.1, e.2, w) s)
      | none => (res, false, s)) a.entries new s)
  else
    returned (forEachE (fun res (e : K × W) s => match a.get e.1 with
      | some v => insertCloned cl res e.1 (f (e.1, v, e.2) s)
      | none => (res, false, s)) b.entries new s)

end BTreeMap
end Verif
