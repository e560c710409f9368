import Verif.Spec.Radix
/-!
# How deep and how wide a tree is
-/
namespace Verif
namespace Tree
variable {K V : Type _}

/-- some node of the tree is reached from the root by spelling `p` (whether or not a value is stored there) -/
inductive NodeBy : Tree K V → List K → Prop
  | here {p : List K} {v : Option V} {ks : List (Tree K V)} : NodeBy ⟨p, v, ks⟩ p
  | there {p : List K} {v : Option V} {ks : List (Tree K V)} {c : Tree K V} {q : List K} :
      c ∈ ks → NodeBy c q → NodeBy ⟨p, v, ks⟩ (p ++ q)

/-- no node is further than `n` key components from the root -/
def Shallow (n : Nat) (t : Tree K V) : Prop := ∀ p, NodeBy t p → p.length ≤ n

/-- all keys have at most `n` components -/
def KeysUpTo (n : Nat) (t : Tree K V) : Prop := ∀ k, HasEntry t k → k.length ≤ n

/-- a chain of `n` nodes, each a child of the one before, starting at the root -/
inductive Chain : Tree K V → Nat → Prop
  | root {t : Tree K V} : Chain t 1
  | down {p : List K} {v : Option V} {ks : List (Tree K V)} {c : Tree K V} {n : Nat} : c ∈ ks → Chain c n → Chain ⟨p, v, ks⟩ (n + 1)

/-- going to the first child again and again one passes `n` nodes, counting the root -/
inductive FirstChain : Tree K V → Nat → Prop
  | root {t : Tree K V} : FirstChain t 1
  | down {p : List K} {v : Option V} {ks : List (Tree K V)} {c : Tree K V} {n : Nat} : FirstChain c n → FirstChain ⟨p, v, c :: ks⟩ (n + 1)

/-- no node has more than `w` children -/
inductive Narrow (w : Nat) : Tree K V → Prop
  | mk {p : List K} {v : Option V} {ks : List (Tree K V)} : ks.length ≤ w → (∀ c ∈ ks, Narrow w c) → Narrow w ⟨p, v, ks⟩

/-- `s'` is a state of the iterator at some point while it runs from `s` (between two turns of the loop in `next`) -/
inductive Later {σ ι : Type _} (turn : σ → Turn σ ι) (s : σ) : σ → Prop
  | start : Later turn s s
  | again {s' s'' : σ} : Later turn s s' → turn s' = .again s'' → Later turn s s''
  | yield {s' s'' : σ} {x : ι} : Later turn s s' → turn s' = .yield x s'' → Later turn s s''

/-- Calling `next()` until it returns `None` takes `n` turns of its loop in all. -/
inductive Turns {σ ι : Type _} (turn : σ → Turn σ ι) : σ → Nat → Prop
  | done {s : σ} : turn s = .done → Turns turn s 1
  | again {s s' : σ} {n : Nat} : turn s = .again s' → Turns turn s' n → Turns turn s (n + 1)
  | yield {s s' : σ} {x : ι} {n : Nat} : turn s = .yield x s' → Turns turn s' n → Turns turn s (n + 1)

/-- the number of nodes of a tree -/
def nodes : Tree K V → Nat
  | ⟨_, _, ks⟩ => 1 + nodesL ks
where
  /-- in a list of trees -/
  nodesL : List (Tree K V) → Nat
    | [] => 0
    | c :: cs => nodes c + nodesL cs

/-- the number of key components stored in the nodes of a tree -/
def components : Tree K V → Nat
  | ⟨p, _, ks⟩ => p.length + componentsL ks
where
  /-- in a list of trees -/
  componentsL : List (Tree K V) → Nat
    | [] => 0
    | c :: cs => components c + componentsL cs

end Tree
end Verif
