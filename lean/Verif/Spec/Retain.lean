import Verif.Model.Std
/-! # Specification of retaining with a stateful predicate -/
namespace Verif

/-- Ask the (stateful) predicate about every element once, from left to right, and keep the elements it accepts. -/
def keepRun {α P : Type _} (f : P → α → Call (P × Bool)) : P → List α → Call (P × List α)
  | p, [] => .ret (p, [])
  | p, x :: xs =>
    match f p x with
    | .panic => .panic
    | .ret (p', b) =>
      match keepRun f p' xs with
      | .panic => .panic
      | .ret (q, l) => .ret (q, if b then x :: l else l)

end Verif
