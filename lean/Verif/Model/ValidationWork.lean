import Verif.Model.ArcArchive
/-!
# How much work the validation of an archive is

The validators of `Model/Archive` and `Model/ArcArchive` with counters.
-/
namespace Verif
section
variable {K V : Type _} [Ord K]

namespace Archive

/-- `<[T]>::check_bytes` (external crate; as `checkAll`), adding up the work for the elements -/
def checkAllW (rec : Nat → Range → Res Range × Nat) : List Nat → Range → Res Range × Nat
  | [], r => (.ok r, 0)
  | c :: cs, r =>
    match rec c r with
    | (.ok r', n) => ((checkAllW rec cs r').1, n + (checkAllW rec cs r').2)
    | (e, n) => (e, n)

/-- as `checkChildren` (flat_radix_tree.rs:263-264) -/
def checkChildrenW (l : Layout) (b : Buf K V) (rec : Nat → Range → Res Range × Nat) (r : Range) (p : VecPtr) : Res Range × Nat :=
  if checkPtr b l.nodeSize l.nodeAlign r p then
    match checkAllW rec (slots l.nodeSize p) (r.push p) with
    | (.ok _, n) => (.ok (r.pop l.nodeSize p), n)
    | (.err _, n) => (.err .children, n)
    | (e, n) => (e, n)
  else (.err .children, 0)

/-- `check_bytes` (flat_radix_tree.rs:235-267; as `checkNode`). Counted are the calls of `check_bytes`, the key components checked, and the children looked at in the test
for empty prefixes and in the test for the order. Simplification: a pass over a slice that stops early is counted as a whole. -/
def checkNodeW (l : Layout) (b : Buf K V) : Nat → Nat → Range → Res Range × Nat
  | 0, _, _ => (.deep, 0)
  | fuel + 1, a, r =>
    if !(decide (a + l.nodeSize ≤ b.len) && decide (a % l.nodeAlign = 0)) then (.ub, 1)
    else if !checkPtr b l.keySize l.keyAlign r (b.node a).pre then (.err .prefix, 1)
    else if !(slots l.keySize (b.node a).pre).all (fun x => (b.key x).isSome) then (.err .prefix, 1 + (b.node a).pre.len)
    else if (b.node a).val.isNone then (.err .value, 1 + (b.node a).pre.len)
    else match deref b l.nodeSize l.nodeAlign (b.node a).kids with
      | none => (.ub, 1 + (b.node a).pre.len)
      | some cs =>
        if !cs.all (fun c => decide ((b.node c).pre.len ≠ 0)) then (.err .children, 1 + (b.node a).pre.len + cs.length)
        else match ordered l b cs with
          | .ok true =>
            ((checkChildrenW l b (checkNodeW l b fuel) (r.pop l.keySize (b.node a).pre) (b.node a).kids).1,
             1 + (b.node a).pre.len + 2 * cs.length + (checkChildrenW l b (checkNodeW l b fuel) (r.pop l.keySize (b.node a).pre) (b.node a).kids).2)
          | .ok false => (.err .order, 1 + (b.node a).pre.len + 2 * cs.length)
          | .err e => (.err e, 1 + (b.node a).pre.len + 2 * cs.length)
          | .ub => (.ub, 1 + (b.node a).pre.len + 2 * cs.length)
          | .deep => (.deep, 1 + (b.node a).pre.len + 2 * cs.length)

/-- `check_archived_value` (as `checkRoot`) -/
def checkRootW (l : Layout) (b : Buf K V) (a : Nat) : Option (Res Range) × Nat :=
  if a + l.nodeSize ≤ b.len ∧ a % l.nodeAlign = 0 then (some (checkNodeW l b (b.len + 1) a ⟨0, a⟩).1, (checkNodeW l b (b.len + 1) a ⟨0, a⟩).2) else (none, 0)

end Archive

namespace ArcArchive
open Archive

/-- what has been done: nodes checked together with key components checked, and children looked at before they are checked -/
structure Work where
  checks : Nat
  looks : Nat
deriving DecidableEq, Repr

/-- both -/
def Work.add (a b : Work) : Work := ⟨a.checks + b.checks, a.looks + b.looks⟩

/-- `<[T]>::check_bytes` (external crate; as `checkEach`), adding up the work for the elements -/
def checkEachW (rec : Nat → Ctx → Res Ctx × Work) : List Nat → Ctx → Res Ctx × Work
  | [], c => (.ok c, ⟨0, 0⟩)
  | x :: xs, c =>
    match rec x c with
    | (.ok c', n) => ((checkEachW rec xs c').1, n.add (checkEachW rec xs c').2)
    | (e, n) => (e, n)

/-- as `checkArc` (arc_radix_tree.rs:315-316) -/
def checkArcW (l : ALayout) (b : ABuf K V) (rec : Nat → Ctx → Res Ctx × Work) (c : Ctx) (t : Int) : Res Ctx × Work :=
  if !arcOk l b t then (.err .children, ⟨0, 0⟩)
  else if c.seen.contains t.toNat then (.ok c, ⟨0, 0⟩)
  else if !(decide (c.rng.lo ≤ t.toNat) && decide (t.toNat + l.vecSize ≤ c.rng.hi)) then (.err .children, ⟨0, 0⟩)
  else if !checkPtr b.flat l.nodeSize l.nodeAlign ⟨c.rng.lo, t.toNat⟩ (b.vec t.toNat) then (.err .children, ⟨0, 0⟩)
  else match checkEachW rec (slots l.nodeSize (b.vec t.toNat)) ⟨⟨c.rng.lo, (b.vec t.toNat).target.toNat⟩, t.toNat :: c.seen⟩ with
    | (.ok c', n) => (.ok ⟨⟨t.toNat + l.vecSize, c.rng.hi⟩, c'.seen⟩, n)
    | (.err _, n) => (.err .children, n)
    | (e, n) => (e, n)

/-- `check_bytes` (arc_radix_tree.rs:287-319; as `checkNode`), with the same simplification as above -/
def checkNodeW (l : ALayout) (b : ABuf K V) : Nat → Nat → Ctx → Res Ctx × Work
  | 0, _, _ => (.deep, ⟨0, 0⟩)
  | fuel + 1, a, c =>
    if !(decide (a + l.nodeSize ≤ b.len) && decide (a % l.nodeAlign = 0)) then (.ub, ⟨1, 0⟩)
    else if !checkPtr b.flat l.keySize l.keyAlign c.rng (b.node a).pre then (.err .prefix, ⟨1, 0⟩)
    else if !(slots l.keySize (b.node a).pre).all (fun x => (b.key x).isSome) then (.err .prefix, ⟨1 + (b.node a).pre.len, 0⟩)
    else if (b.node a).val.isNone then (.err .value, ⟨1 + (b.node a).pre.len, 0⟩)
    else match derefArc l b (b.node a).kids with
      | none => (.ub, ⟨1 + (b.node a).pre.len, 0⟩)
      | some cs =>
        if !cs.all (fun x => decide ((b.node x).pre.len ≠ 0)) then (.err .children, ⟨1 + (b.node a).pre.len, cs.length⟩)
        else match ordered l.toLayout b.flat cs with
          | .ok true =>
            ((checkArcW l b (checkNodeW l b fuel) ⟨c.rng.pop l.keySize (b.node a).pre, c.seen⟩ (b.node a).kids).1,
             (⟨1 + (b.node a).pre.len, 2 * cs.length⟩ : Work).add (checkArcW l b (checkNodeW l b fuel) ⟨c.rng.pop l.keySize (b.node a).pre, c.seen⟩ (b.node a).kids).2)
          | .ok false => (.err .order, ⟨1 + (b.node a).pre.len, 2 * cs.length⟩)
          | .err e => (.err e, ⟨1 + (b.node a).pre.len, 2 * cs.length⟩)
          | .ub => (.ub, ⟨1 + (b.node a).pre.len, 2 * cs.length⟩)
          | .deep => (.deep, ⟨1 + (b.node a).pre.len, 2 * cs.length⟩)

/-- `check_archived_value` (as `checkRoot`) -/
def checkRootW (l : ALayout) (b : ABuf K V) (a : Nat) : Option (Res Ctx) × Work :=
  if a + l.nodeSize ≤ b.len ∧ a % l.nodeAlign = 0 then
    (some (checkNodeW l b (b.len + 1) a ⟨⟨0, a⟩, []⟩).1, (checkNodeW l b (b.len + 1) a ⟨⟨0, a⟩, []⟩).2)
  else (none, ⟨0, 0⟩)

omit [Ord K]

/-- as `loadEach`, adding up the calls -/
def loadEachW (rec : Nat → Reg K V → Option (ATree K V × Reg K V × Nat)) : List Nat → Reg K V → Option (List (ATree K V) × Reg K V × Nat)
  | [], g => some ([], g, 0)
  | x :: xs, g =>
    match rec x g with
    | none => none
    | some (t, g1, n) =>
      match loadEachW rec xs g1 with
      | none => none
      | some (ts, g2, k) => some (t :: ts, g2, n + k)

/-- `Deserialize` (arc_radix_tree.rs:233-242; as `load`), with the number of calls of `deserialize` for nodes -/
def loadW (l : ALayout) (b : ABuf K V) : Nat → Nat → Reg K V → Option (ATree K V × Reg K V × Nat)
  | 0, _, _ => none
  | fuel + 1, a, g =>
    match prefixAt l b a, valueAt b a, childrenAt l b a with
    | some p, some v, some cs =>
      match g.known.lookup (b.node a).kids.toNat with
      | some (x, ts) => some (⟨p, v, x, ts⟩, g, 1)
      | none =>
        match loadEachW (loadW l b fuel) cs g with
        | none => none
        | some (ts, g', n) => some (⟨p, v, g'.next, ts⟩, ⟨((b.node a).kids.toNat, g'.next, ts) :: g'.known, g'.next + 1⟩, 1 + n)
    | _, _, _ => none

end ArcArchive
end
end Verif
