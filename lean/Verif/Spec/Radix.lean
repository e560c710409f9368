import Verif.Model.RadixTree
import Verif.Spec.Order
/-!
# Specification vocabulary for radix trees

`Entry t k v` says what a tree *contains* by following a path from the root; it does not mention any of the operations. `Valid` and
`Canonical` describe the shapes of trees.
-/
namespace Verif
namespace Tree

/-- `t` stores the value `v` under the key `k`: some path from the root to a node with value `v` spells `k`. -/
inductive Entry {K V : Type _} : Tree K V → List K → V → Prop
  | here {p : List K} {v : V} {ks : List (Tree K V)} : Entry ⟨p, some v, ks⟩ p v
  | there {p : List K} {w : Option V} {ks : List (Tree K V)} {c : Tree K V} {k : List K} {v : V} :
      c ∈ ks → Entry c k v → Entry ⟨p, w, ks⟩ (p ++ k) v

/-- `t` stores some value under the key `k`. -/
def HasEntry {K V : Type _} (t : Tree K V) (k : List K) : Prop := ∃ v, Entry t k v

/-- the keys of `b` that properly extend `k` continue with at least two different components -/
def KeysFork {K W : Type _} (b : Tree K W) (k : List K) : Prop := ∃ c d s s', c ≠ d ∧ HasEntry b (k ++ c :: s) ∧ HasEntry b (k ++ d :: s')

/-- Children have non-empty prefixes and are strictly ascending in the first component of their prefixes, at every node. -/
inductive Valid {K V : Type _} [Ord K] : Tree K V → Prop
  | mk {p : List K} {v : Option V} {ks : List (Tree K V)} :
      (∀ c ∈ ks, c.pre ≠ []) → AscendingBy (fun c : Tree K V => c.pre.head?) ks → (∀ c ∈ ks, Valid c) → Valid ⟨p, v, ks⟩

/-- No node of the tree is superfluous: each has a value or at least two children. -/
inductive Full {K V : Type _} : Tree K V → Prop
  | mk {p : List K} {v : Option V} {ks : List (Tree K V)} :
      (v = none → 2 ≤ ks.length) → (∀ c ∈ ks, Full c) → Full ⟨p, v, ks⟩

/-- Canonical trees: valid, and either *the* empty tree or without superfluous nodes. -/
def Canonical {K V : Type _} [Ord K] (t : Tree K V) : Prop := Valid t ∧ (t = empty ∨ Full t)

/-- Lexicographic order of key sequences: `a` is a proper prefix of `b`, or smaller at the first place where they differ. -/
def LexLt {K : Type _} [Ord K] (a b : List K) : Prop :=
  (∃ c r, b = a ++ c :: r) ∨ ∃ p x y r s, a = p ++ x :: r ∧ b = p ++ y :: s ∧ compare x y = .lt

/-- Calling `next()` on the iterator `s` until it returns `None` yields the items of the list, one per call. (`turn` is one turn of the loop in
`next`; the relation is inductive, so the loop ends and so does the iteration.) -/
inductive Yields {σ ι : Type _} (turn : σ → Turn σ ι) : σ → List ι → Prop
  | done {s : σ} : turn s = .done → Yields turn s []
  | again {s s' : σ} {l : List ι} : turn s = .again s' → Yields turn s' l → Yields turn s l
  | yield {s s' : σ} {x : ι} {l : List ι} : turn s = .yield x s' → Yields turn s' l → Yields turn s (x :: l)

/-- The iterator yields exactly the entries of `t` whose key starts with `p`, each once, keys strictly ascending lexicographically. -/
def EnumeratesUnder {K V : Type _} [Ord K] (it : Iter K V) (t : Tree K V) (p : List K) : Prop :=
  ∃ l : List (List K × V), Yields Iter.turn it l ∧ l.Pairwise (fun x y => LexLt x.1 y.1) ∧
    ∀ k v, (k, v) ∈ l ↔ Entry t k v ∧ ∃ r, k = p ++ r

/-- every key component and value stored in the tree passes its own check -/
inductive PartsOk {K V : Type _} (okK : K → Bool) (okV : V → Bool) : Tree K V → Prop
  | mk {p : List K} {v : Option V} {ks : List (Tree K V)} :
      (∀ x ∈ p, okK x = true) → (∀ x, v = some x → okV x = true) → (∀ c ∈ ks, PartsOk okK okV c) → PartsOk okK okV ⟨p, v, ks⟩

end Tree
end Verif
