import Verif.Model.VecMap
import Verif.Spec.Order
import Verif.Spec.Retain
/-!
# Specification vocabulary for maps: what a join offers to its closure, public histories, and the partial function they denote
-/
namespace Verif

/-- the key a join argument is about -/
def OuterJoinArg.key {K V W : Type _} : OuterJoinArg K V W → K
  | .left k _ => k
  | .right k _ => k
  | .both k _ _ => k

/-- `Offers a b arg`: for two association lists, `arg` is the argument for one key: `left` for a key of `a` that is not in `b`, `right`
for a key of `b` that is not in `a`, `both` for a key of `a` that is also in `b` (with the key as stored in `a`). -/
def Offers {K V W : Type _} [Ord K] (a : List (K × V)) (b : List (K × W)) : OuterJoinArg K V W → Prop
  | .left k v => (k, v) ∈ a ∧ ¬ HasKey b k
  | .right k w => (k, w) ∈ b ∧ ¬ HasKey a k
  | .both k v w => (k, v) ∈ a ∧ Maps b k w

/-- A closure on join arguments does not distinguish keys that are equal in the order. -/
def RespectsKeys {K V W R : Type _} [Ord K] (f : OuterJoinArg K V W → R) : Prop :=
  ∀ k k', compare k k' = .eq →
    (∀ v, f (.left k v) = f (.left k' v)) ∧ (∀ w, f (.right k w) = f (.right k' w)) ∧ ∀ v w, f (.both k v w) = f (.both k' v w)

/-- Every way the public API can produce (or leave behind) a `VecMap`, for all value types at once. In-place operations are
included even when they end in a panic of the closure; `retain` is included when it returns. -/
inductive BuiltMap {K : Type} [Ord K] : {V : Type} → VecMap K V → Prop
  | empty {V} : BuiltMap (VecMap.empty : VecMap K V)
  | single {V} (e : K × V) : BuiltMap (VecMap.single e)
  | fromIter {V} (l : List (K × V)) : BuiltMap (VecMap.fromIter l)
  /-- the entries of a `BTreeMap` come out strictly ascending by key -/
  | fromBTreeMap {V} (l : List (K × V)) (h : AscendingBy Prod.fst l) : BuiltMap (VecMap.fromBTreeMap l)
  | deserialized {V E : Type} (seq : List (Except E (K × V))) {m : VecMap K V} (h : VecMap.visitMap seq = .ok m) : BuiltMap m
  | validated {V} (valid : K × V → Bool) (l : List (K × V)) {m : VecMap K V} (h : VecMap.checkBytes valid l = .ok m) : BuiltMap m
  | mapValues {V R} {m : VecMap K V} (h : BuiltMap m) (f : V → R) : BuiltMap (m.mapValues f)
  | insert {V} {m : VecMap K V} (h : BuiltMap m) (k : K) (v : V) : BuiltMap (m.insert k v).1
  | updateMut {V} {m : VecMap K V} (h : BuiltMap m) (k : K) (w : V → V) : BuiltMap (m.updateMut k w).1
  | retain {V P : Type} {m : VecMap K V} (h : BuiltMap m) (f : P → K × V → Call (P × Bool)) (p : P)
      (hr : (m.retain f p).2.2 ≠ .panic) : BuiltMap (m.retain f p).1
  | extend {V} {m : VecMap K V} (h : BuiltMap m) (l : List (K × V)) : BuiltMap (m.extend l).1
  | mergeWith {V} {a b : VecMap K V} (ha : BuiltMap a) (hb : BuiltMap b) : BuiltMap (a.mergeWith b).1
  | combineWith {V} {a b : VecMap K V} (ha : BuiltMap a) (hb : BuiltMap b) (f : V → V → Call V) : BuiltMap (a.combineWith b f).1
  | outerJoin {V W R} {a : VecMap K V} {b : VecMap K W} (ha : BuiltMap a) (hb : BuiltMap b)
      (f : OuterJoinArg K V W → Call (Option R)) : BuiltMap (a.outerJoin b f).1
  | leftJoin {V W R} {a : VecMap K V} {b : VecMap K W} (ha : BuiltMap a) (hb : BuiltMap b)
      (f : K → V → Option W → Call (Option R)) : BuiltMap (a.leftJoin b f).1
  | rightJoin {V W R} {a : VecMap K V} {b : VecMap K W} (ha : BuiltMap a) (hb : BuiltMap b)
      (f : K → Option V → W → Call (Option R)) : BuiltMap (a.rightJoin b f).1
  | innerJoin {V W R} {a : VecMap K V} {b : VecMap K W} (ha : BuiltMap a) (hb : BuiltMap b)
      (f : K → V → W → Call (Option R)) : BuiltMap (a.innerJoin b f).1
  | outerJoinWith {V W} {a : VecMap K V} {b : VecMap K W} (ha : BuiltMap a) (hb : BuiltMap b)
      (f : OuterJoinArg K V W → Call (Option V)) : BuiltMap (a.outerJoinWith b f).1
  | leftJoinWith {V W} {a : VecMap K V} {b : VecMap K W} (ha : BuiltMap a) (hb : BuiltMap b)
      (f : K → V → Option W → Call (Option V)) : BuiltMap (a.leftJoinWith b f).1
  | rightJoinWith {V W} {a : VecMap K V} {b : VecMap K W} (ha : BuiltMap a) (hb : BuiltMap b)
      (f : K → Option V → W → Call (Option V)) : BuiltMap (a.rightJoinWith b f).1
  | innerJoinWith {V W} {a : VecMap K V} {b : VecMap K W} (ha : BuiltMap a) (hb : BuiltMap b)
      (f : K → V → W → Call (Option V)) : BuiltMap (a.innerJoinWith b f).1

/-- Operations a client can apply to one map variable; joins take a second map with values in `W`. -/
inductive MapOp (K V W : Type) where
  | insert (k : K) (v : V)
  | update (k : K) (w : V → V)
  | retain (p : K → V → Bool)
  | mapValues (f : V → V)
  | extend (l : List (K × V))
  | mergeWith (b : VecMap K V)
  | combineWith (b : VecMap K V) (f : V → V → V)
  | outerJoinWith (b : VecMap K W) (f : OuterJoinArg K V W → Option V)
  | leftJoinWith (b : VecMap K W) (f : K → V → Option W → Option V)
  | rightJoinWith (b : VecMap K W) (f : K → Option V → W → Option V)
  | innerJoinWith (b : VecMap K W) (f : K → V → W → Option V)
  | get (k : K)
  | len
  | isEmpty

/-- What the client sees. -/
inductive MapOut (V : Type) where
  | unit
  | bool (b : Bool)
  | nat (n : Nat)
  | val (o : Option V)
  | panicked

/-- unit result of an in-place operation -/
def MapOut.ofFlow {V : Type} : Flow → MapOut V
  | .panic => .panicked
  | _ => .unit

/-- run one operation of the implementation model -/
def MapOp.exec {K V W : Type} [Ord K] (m : VecMap K V) : MapOp K V W → VecMap K V × MapOut V
  | .insert k v => ((m.insert k v).1, .val (m.insert k v).2)
  | .update k w => ((m.updateMut k w).1, .bool (m.updateMut k w).2)
  | .retain p => ((m.retain (fun _ e => .ret ((), p e.1 e.2)) ()).1, .ofFlow (m.retain (fun _ e => .ret ((), p e.1 e.2)) ()).2.2)
  | .mapValues f => (m.mapValues f, .unit)
  | .extend l => ((m.extend l).1, .ofFlow (m.extend l).2)
  | .mergeWith b => ((m.mergeWith b).1, .ofFlow (m.mergeWith b).2)
  | .combineWith b f => ((m.combineWith b (fun v w => .ret (f v w))).1, .ofFlow (m.combineWith b (fun v w => .ret (f v w))).2)
  | .outerJoinWith b f => ((m.outerJoinWith b (fun x => .ret (f x))).1, .ofFlow (m.outerJoinWith b (fun x => .ret (f x))).2)
  | .leftJoinWith b f => ((m.leftJoinWith b (fun k v w => .ret (f k v w))).1, .ofFlow (m.leftJoinWith b (fun k v w => .ret (f k v w))).2)
  | .rightJoinWith b f => ((m.rightJoinWith b (fun k v w => .ret (f k v w))).1, .ofFlow (m.rightJoinWith b (fun k v w => .ret (f k v w))).2)
  | .innerJoinWith b f => ((m.innerJoinWith b (fun k v w => .ret (f k v w))).1, .ofFlow (m.innerJoinWith b (fun k v w => .ret (f k v w))).2)
  | .get k => (m, .val (m.get k))
  | .len => (m, .nat m.len)
  | .isEmpty => (m, .bool m.isEmpty)

/-- run a sequence of operations, recording what the client sees -/
def execMap {K V W : Type} [Ord K] : VecMap K V → List (MapOp K V W) → VecMap K V × List (MapOut V)
  | m, [] => (m, [])
  | m, op :: ops =>
    let r := op.exec m
    let rest := execMap r.1 ops
    (rest.1, r.2 :: rest.2)

/-- Admissible operands: second maps come from the public API; closures do not separate keys that are equal in the order. -/
def MapOp.Ok {K V W : Type} [Ord K] : MapOp K V W → Prop
  | .retain p => ∀ k k' v, compare k k' = .eq → p k v = p k' v
  | .mergeWith b | .combineWith b _ => BuiltMap b
  | .outerJoinWith b f => BuiltMap b ∧ RespectsKeys f
  | .leftJoinWith b f => BuiltMap b ∧ ∀ k k' v w, compare k k' = .eq → f k v w = f k' v w
  | .rightJoinWith b f => BuiltMap b ∧ ∀ k k' v w, compare k k' = .eq → f k v w = f k' v w
  | .innerJoinWith b f => BuiltMap b ∧ ∀ k k' v w, compare k k' = .eq → f k v w = f k' v w
  | _ => True

/-- Which value a list of pairs assigns to a key when later pairs overwrite earlier ones. -/
def LastValue {K V : Type _} [Ord K] (l : List (K × V)) (k : K) (v : V) : Prop :=
  ∃ before k' after, l = before ++ (k', v) :: after ∧ compare k' k = .eq ∧ ¬ HasKey after k

/-- The mathematical effect of an operation on a (relational) map. -/
def MapOp.next {K V W : Type} [Ord K] (M : K → V → Prop) : MapOp K V W → (K → V → Prop)
  | .insert k v => fun k' v' => (compare k k' = .eq ∧ v' = v) ∨ (compare k k' ≠ .eq ∧ M k' v')
  | .update k w => fun k' v' => (compare k k' = .eq ∧ ∃ v, M k' v ∧ v' = w v) ∨ (compare k k' ≠ .eq ∧ M k' v')
  | .retain p => fun k v => M k v ∧ p k v = true
  | .mapValues f => fun k v' => ∃ v, M k v ∧ v' = f v
  | .extend l => fun k v => LastValue l k v ∨ (¬ HasKey l k ∧ M k v)
  | .mergeWith b => fun k v => Maps b.asSlice k v ∨ (¬ HasKey b.asSlice k ∧ M k v)
  | .combineWith b f => fun k r =>
      (M k r ∧ ¬ HasKey b.asSlice k) ∨ (Maps b.asSlice k r ∧ ∀ v, ¬ M k v) ∨ ∃ v w, M k v ∧ Maps b.asSlice k w ∧ r = f v w
  | .outerJoinWith b f => fun k r =>
      (∃ v, M k v ∧ ¬ HasKey b.asSlice k ∧ f (.left k v) = some r) ∨
      (∃ w, Maps b.asSlice k w ∧ (∀ v, ¬ M k v) ∧ f (.right k w) = some r) ∨
      (∃ v w, M k v ∧ Maps b.asSlice k w ∧ f (.both k v w) = some r)
  | .leftJoinWith b f => fun k r =>
      (∃ v, M k v ∧ ¬ HasKey b.asSlice k ∧ f k v none = some r) ∨ (∃ v w, M k v ∧ Maps b.asSlice k w ∧ f k v (some w) = some r)
  | .rightJoinWith b f => fun k r =>
      (∃ w, Maps b.asSlice k w ∧ (∀ v, ¬ M k v) ∧ f k none w = some r) ∨
      (∃ v w, M k v ∧ Maps b.asSlice k w ∧ f k (some v) w = some r)
  | .innerJoinWith b f => fun k r => ∃ v w, M k v ∧ Maps b.asSlice k w ∧ f k v w = some r
  | .get _ | .len | .isEmpty => M

/-- The answer the mathematical map gives. -/
def MapOp.answers {K V W : Type} [Ord K] (M : K → V → Prop) : MapOp K V W → MapOut V → Prop
  | .insert k _, o => ∃ x, o = .val x ∧ ∀ v, x = some v ↔ M k v
  | .get k, o => ∃ x, o = .val x ∧ ∀ v, x = some v ↔ M k v
  | .update k _, o => ∃ b, o = .bool b ∧ (b = true ↔ ∃ v, M k v)
  | .len, o => ∃ ks : List K, ks.Pairwise (fun x y => compare x y ≠ .eq) ∧ (∀ k, (∃ v, M k v) ↔ Has ks k) ∧ o = .nat ks.length
  | .isEmpty, o => ∃ b, o = .bool b ∧ (b = true ↔ ∀ k v, ¬ M k v)
  | _, o => o = .unit

/-- The observations `outs` are those of the mathematical map that starts as `M` and ends as `M'`. -/
inductive MapRun {K V W : Type} [Ord K] : (K → V → Prop) → List (MapOp K V W) → List (MapOut V) → (K → V → Prop) → Prop
  | nil {M} : MapRun M [] [] M
  | cons {M M' op ops o os} : op.answers M o → MapRun (op.next M) ops os M' → MapRun M (op :: ops) (o :: os) M'

end Verif
