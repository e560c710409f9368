import Verif.Spec.Radix
/-!
# Histories of radix trees

A `Prog` is a history of calls of the public interface: it says how a tree was built, starting from empty trees, leaves, single entries and
collected pairs, including how the second operands of binary operations were built. `run` executes it with the operations of the model;
`meaning` says what map from keys to values a user expects, using nothing but functions from keys to optional values.
-/
namespace Verif
namespace Tree

/-- Histories of trees with keys over `K` and values in `V`. Closures of in-place operations return the new value and whether to keep it. -/
inductive Prog (K : Type) : Type → Type 1
  | empty {V : Type} : Prog K V
  | leaf {V : Type} (v : V) : Prog K V
  | single {V : Type} (k : List K) (v : V) : Prog K V
  | fromIter {V : Type} (l : List (List K × V)) : Prog K V
  | insert {V : Type} (a : Prog K V) (k : List K) (v : V) : Prog K V
  | prepend {V : Type} (a : Prog K V) (p : List K) : Prog K V
  | filterPrefix {V : Type} (a : Prog K V) (p : List K) : Prog K V
  | union {V : Type} (a b : Prog K V) : Prog K V
  | unionWith {V : Type} (a b : Prog K V) : Prog K V
  | intersection {V W : Type} (a : Prog K V) (b : Prog K W) : Prog K V
  | intersectionWith {V W : Type} (a : Prog K V) (b : Prog K W) : Prog K V
  | difference {V W : Type} (a : Prog K V) (b : Prog K W) : Prog K V
  | differenceWith {V W : Type} (a : Prog K V) (b : Prog K W) : Prog K V
  | outerCombine {V : Type} (a b : Prog K V) (f : V → V → Option V) : Prog K V
  | outerCombineWith {V : Type} (a b : Prog K V) (f : V → V → V × Bool) : Prog K V
  | innerCombine {V W : Type} (a : Prog K V) (b : Prog K W) (f : V → W → Option V) : Prog K V
  | innerCombineWith {V W : Type} (a : Prog K V) (b : Prog K W) (f : V → W → V × Bool) : Prog K V
  | leftCombine {V W : Type} (a : Prog K V) (b : Prog K W) (f : V → Option W → Option V) : Prog K V
  | leftCombineWith {V W : Type} (a : Prog K V) (b : Prog K W) (f : V → W → V × Bool) : Prog K V
  | removePrefixWith {V W : Type} (a : Prog K V) (b : Prog K W) (f : W → Bool) : Prog K V
  | retainPrefixWith {V W : Type} (a : Prog K V) (b : Prog K W) (f : W → Bool) : Prog K V
  | saveAndLoad {V : Type} (a : Prog K V) : Prog K V

/-- a closure that returns normally -/
def closure {V W : Type} (f : V → W → V × Bool) : MutFn V W := fun v w => ((f v w).1, .ret (f v w).2)

/-- the outcome of an in-place operation as a call -/
def outcome {K V : Type} (r : Tree K V × Flow) : Call (Tree K V) :=
  match r with
  | (t, .cont) => .ret t
  | _ => .panic

/-- execute a history; a panic anywhere makes the whole history panic -/
def Prog.run {K : Type} [Ord K] [DecidableEq K] : {V : Type} → Prog K V → Call (Tree K V)
  | _, .empty => .ret Tree.empty
  | _, .leaf v => .ret (Tree.leaf v)
  | _, .single k v => .ret (Tree.single k v)
  | _, .fromIter l => outcome (Tree.fromIter l)
  | _, .insert a k v => bindC a.run fun t => outcome (t.insert k v)
  | _, .prepend a p => bindC a.run fun t => .ret (t.prepend p)
  | _, .filterPrefix a p => bindC a.run fun t => t.filterPrefix p
  | _, .union a b => bindC a.run fun t => bindC b.run fun u => t.union u
  | _, .unionWith a b => bindC a.run fun t => bindC b.run fun u => outcome (t.unionWith u)
  | _, .intersection a b => bindC a.run fun t => bindC b.run fun u => t.intersection u
  | _, .intersectionWith a b => bindC a.run fun t => bindC b.run fun u => outcome (t.intersectionWith u)
  | _, .difference a b => bindC a.run fun t => bindC b.run fun u => t.difference u
  | _, .differenceWith a b => bindC a.run fun t => bindC b.run fun u => outcome (t.differenceWith u)
  | _, .outerCombine a b f => bindC a.run fun t => bindC b.run fun u => t.outerCombine u f
  | _, .outerCombineWith a b f => bindC a.run fun t => bindC b.run fun u => outcome (t.outerCombineWith u (closure f))
  | _, .innerCombine a b f => bindC a.run fun t => bindC b.run fun u => t.innerCombine u f
  | _, .innerCombineWith a b f => bindC a.run fun t => bindC b.run fun u => outcome (t.innerCombineWith u (closure f))
  | _, .leftCombine a b f => bindC a.run fun t => bindC b.run fun u => t.leftCombine u f
  | _, .leftCombineWith a b f => bindC a.run fun t => bindC b.run fun u => outcome (t.leftCombineWith u (closure f))
  | _, .removePrefixWith a b f => bindC a.run fun t => bindC b.run fun u => outcome (t.removePrefixWith u f)
  | _, .retainPrefixWith a b f => bindC a.run fun t => bindC b.run fun u => outcome (t.retainPrefixWith u f)
  | _, .saveAndLoad a => bindC a.run fun t => .ret t.archive.deserialize

/-! ### Expected contents -/

/-- a map from keys to values -/
abbrev KeyMap (K V : Type) := List K → Option V

/-- keep the new value if the flag says so -/
def kept {V : Type} (r : V × Bool) : Option V := if r.2 then some r.1 else none

/-- the keys below `k` in `m` continue with at least two different components -/
def KeyMap.Forks {K V : Type} (m : KeyMap K V) (k : List K) : Prop :=
  ∃ c d s s', c ≠ d ∧ (m (k ++ c :: s)).isSome ∧ (m (k ++ d :: s')).isSome

/-- some key of `m` whose value satisfies `f` is a prefix of `k` -/
def KeyMap.Covers {K W : Type} (m : KeyMap K W) (f : W → Bool) (k : List K) : Prop :=
  ∃ p r w, k = p ++ r ∧ m p = some w ∧ f w = true

/-- the first pair whose key is `k`; applied to the reversed list, the last one -/
def assoc {K V : Type} [DecidableEq K] : List (List K × V) → List K → Option V
  | [], _ => none
  | e :: l, k => if e.1 = k then some e.2 else assoc l k

/-- values only at keys present on both sides -/
def onBoth {V W : Type} (f : V → W → Option V) : Option V → Option W → Option V
  | some v, some w => f v w
  | _, _ => none

/-- like `onBoth`, values at keys present only on the left are kept -/
def onLeft {V W : Type} (f : V → W → Option V) : Option V → Option W → Option V
  | some v, some w => f v w
  | v, none => v
  | none, _ => none

/-- like `onBoth`, values at keys present only on one side are kept -/
def onEither {V : Type} (f : V → V → Option V) : Option V → Option V → Option V
  | some v, some w => f v w
  | v, none => v
  | none, w => w

open Classical in
/-- The map a history stands for. All but `leftCombine` are what the documentation says. `left_combine` consults `f` with `None` only at those
keys of the left tree that the right one lacks although its keys *fork* there, or at the empty key if the right tree is empty. -/
noncomputable def Prog.meaning {K : Type} [DecidableEq K] : {V : Type} → Prog K V → KeyMap K V
  | _, .empty => fun _ => none
  | _, .leaf v => fun k => if k = [] then some v else none
  | _, .single k v => fun k' => if k' = k then some v else none
  | _, .fromIter l => assoc l.reverse
  | _, .insert a k v => fun k' => if k' = k then some v else a.meaning k'
  | _, .prepend a p => fun k => if p <+: k then a.meaning (k.drop p.length) else none
  | _, .filterPrefix a p => fun k => if p <+: k then a.meaning k else none
  | _, .union a b => fun k => (a.meaning k).or (b.meaning k)
  | _, .unionWith a b => fun k => (a.meaning k).or (b.meaning k)
  | _, .intersection a b => fun k => if (b.meaning k).isSome then a.meaning k else none
  | _, .intersectionWith a b => fun k => if (b.meaning k).isSome then a.meaning k else none
  | _, .difference a b => fun k => if (b.meaning k).isSome then none else a.meaning k
  | _, .differenceWith a b => fun k => if (b.meaning k).isSome then none else a.meaning k
  | _, .outerCombine a b f => fun k => onEither f (a.meaning k) (b.meaning k)
  | _, .outerCombineWith a b f => fun k => onEither (fun v w => kept (f v w)) (a.meaning k) (b.meaning k)
  | _, .innerCombine a b f => fun k => onBoth f (a.meaning k) (b.meaning k)
  | _, .innerCombineWith a b f => fun k => onBoth (fun v w => kept (f v w)) (a.meaning k) (b.meaning k)
  | _, .leftCombine a b f => fun k =>
    if (b.meaning k).isSome ∨ b.meaning.Forks k ∨ (k = [] ∧ ∀ k', b.meaning k' = none) then
      (a.meaning k).bind (fun v => f v (b.meaning k))
    else a.meaning k
  | _, .leftCombineWith a b f => fun k => onLeft (fun v w => kept (f v w)) (a.meaning k) (b.meaning k)
  | _, .removePrefixWith a b f => fun k => if b.meaning.Covers f k then none else a.meaning k
  | _, .retainPrefixWith a b f => fun k => if b.meaning.Covers f k then a.meaning k else none
  | _, .saveAndLoad a => a.meaning

/-- A tree that can be built with the public interface. -/
def Reachable {K V : Type} [Ord K] [DecidableEq K] (t : Tree K V) : Prop := ∃ h : Prog K V, h.run = .ret t

end Tree
end Verif
