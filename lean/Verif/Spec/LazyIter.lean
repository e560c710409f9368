import Verif.Model.LazyIter
import Verif.Spec.CopyOnWrite
/-!
# An iteration that may stop at any time
-/
namespace Verif.Cow
open Verif.Tree (Turn)

/-- `n` turns of the loop in `next`, starting in `s`, yield the items `l`, cost `m` and lead to `s'`. -/
inductive Run {σ ι : Type} (turn : σ → Charged (Turn σ ι)) (s : σ) : Nat → List ι → Mem → σ → Prop
  | start : Run turn s 0 [] Mem.zero s
  | again {n : Nat} {l : List ι} {m : Mem} {s' s'' : σ} :
      Run turn s n l m s' → (turn s').res = .again s'' → Run turn s (n + 1) l (m.add (turn s').mem) s''
  | yield {n : Nat} {l : List ι} {m : Mem} {s' s'' : σ} {x : ι} :
      Run turn s n l m s' → (turn s').res = .yield x s'' → Run turn s (n + 1) (l ++ [x]) (m.add (turn s').mem) s''

end Verif.Cow
