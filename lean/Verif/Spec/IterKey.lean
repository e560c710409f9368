import Verif.Model.IterKey
/-!
# Specification: the entry iterator with keys as plain values

The same commands, but every key the client holds is its own immutable list, and the iterator is the plain `Tree.Iter` whose
enumeration C41 and C49 describe. There is no heap and nothing is shared.
-/
namespace Verif
namespace IterKey
open Tree
variable {K V : Type _}

structure Plain (K V : Type _) where
  iter : Option (Iter K V)
  keys : List (Option (List K))

def Plain.start (t : Tree K V) (p : List K) : Plain K V := { iter := some (Iter.new t p), keys := [] }

def Plain.step (s : Plain K V) : Cmd → Plain K V × Obs K V
  | .turn =>
    match s.iter with
    | none => (s, .silent)
    | some it =>
      match it.turn with
      | .done => (s, .done)
      | .again it' => ({ s with iter := some it' }, .silent)
      | .yield (k, v) it' => ({ iter := some it', keys := s.keys ++ [some k] }, .yielded v)
  | .clone i =>
    match s.keys[i]? with
    | some (some k) => ({ s with keys := s.keys ++ [some k] }, .silent)
    | _ => (s, .silent)
  | .drop i =>
    match s.keys[i]? with
    | some (some _) => ({ s with keys := s.keys.set i none }, .silent)
    | _ => (s, .silent)
  | .read i =>
    match s.keys[i]? with
    | some (some k) => (s, .key (some k))
    | _ => (s, .silent)
  | .dropIter => ({ s with iter := none }, .silent)

def Plain.run (s : Plain K V) : List Cmd → Plain K V × List (Obs K V)
  | [] => (s, [])
  | c :: cs => ((Plain.run (s.step c).1 cs).1, (s.step c).2 :: (Plain.run (s.step c).1 cs).2)

/-- number of `Some` results of `next` among the observations -/
def yields : List (Obs K V) → Nat
  | [] => 0
  | .yielded _ :: l => yields l + 1
  | _ :: l => yields l

end IterKey
end Verif
