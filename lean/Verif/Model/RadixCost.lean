import Verif.Model.Cost
import Verif.Model.RadixTree
/-!
# The calls a lookup in a radix tree makes to `==` and `cmp` of the key components

`find` and `common_prefix` once more, with `==` and `cmp` as effects of a monad (as in `Model/Cost.lean`).
-/
namespace Verif
namespace Tree
variable {m : Type → Type} [Monad m] {K V : Type}

/-- `common_prefix` (mod.rs:53-55) with an effectful `==` -/
def commonPrefixM (eq : K → K → m Bool) : List K → List K → m Nat
  | x :: xs, y :: ys => do
    let b ← eq x y
    if b then do
      let n ← commonPrefixM eq xs ys
      pure (n + 1)
    else pure 0
  | _, _ => pure 0

/-- `e.prefix()[0].cmp(c)` (mod.rs:742); the case of an empty prefix is excluded where this is used -/
def headCmpM (cmp : K → K → m Ordering) (e : Tree K V) (c : K) : m Ordering :=
  match e.pre with
  | [] => pure .lt
  | x :: _ => cmp x c

/-- `find` (mod.rs:724-760) with effectful `==` and `cmp`, as `findGo` -/
def findGoM (eq : K → K → m Bool) (cmp : K → K → m Ordering) : Nat → Tree K V → List K → m (Call (FindResult K V))
  | 0, _, _ => pure .panic
  | fuel + 1, t, p => do
    let n ← commonPrefixM eq t.pre p
    if p.length - n = 0 ∧ t.pre.length - n = 0 then pure (.ret (.found t))
    else if p.length - n = 0 then pure (.ret (.prefix t (t.pre.length - n)))
    else if t.pre.length - n = 0 then
      match p[n]? with
      | none => pure .panic
      | some c =>
        if headed t.kids then do
          let r ← binarySearchByM (fun e : Tree K V => headCmpM cmp e c) t.kids
          match r with
          | .found i =>
            match t.kids[i]? with
            | none => pure .panic
            | some child => findGoM eq cmp fuel child (p.drop n)
          | .notFound _ => pure (.ret (.notFound t (p.length - n) (t.pre.length - n)))
        else pure .panic
    else pure (.ret (.notFound t (p.length - n) (t.pre.length - n)))

/-- `find` (mod.rs:724-760) -/
def findM (eq : K → K → m Bool) (cmp : K → K → m Ordering) (t : Tree K V) (p : List K) : m (Call (FindResult K V)) :=
  findGoM eq cmp (t.size + 1) t p

/-- `==` on key components, counted -/
def tickEq [DecidableEq K] (a b : K) : Counted Bool := fun w => (decide (a = b), { w with cmps := w.cmps + 1 })

end Tree
end Verif
