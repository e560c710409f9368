/-!
# What a storage has to do

The contract in the comments of `trait Storage` (examples/radix_db.rs:152-167), with nothing but a function from file names to contents: a file
that does not exist is like an empty file.
-/
namespace Verif.Store

/-- the operations of `Storage`, on names `N` and contents made of `B` (bytes) -/
inductive Op (N B : Type) where
  | append (file : N) (chunk : List B)
  | load (file : N)
  | mv (src dst : N)

/-- what the caller sees: `Ok(())`, the data the callback of `load` is shown, or an error -/
inductive Out (B : Type) where
  | ok
  | data (bytes : List B)
  | err
deriving DecidableEq

/-- the contents of all files -/
abbrev Contents (N B : Type) := N → List B

variable {N B : Type} [DecidableEq N]

/-- replace the contents of one file -/
def Contents.set (c : Contents N B) (n : N) (l : List B) : Contents N B := fun m => if m = n then l else c m

/-- the contract: `append` adds at the end, `load` shows the contents, `mv` overwrites the target and leaves no source -/
def Contents.step (c : Contents N B) : Op N B → Contents N B × Out B
  | .append n chunk => (c.set n (c n ++ chunk), .ok)
  | .load n => (c, .data (c n))
  | .mv a b => (if a = b then c else (c.set b (c a)).set a [], .ok)

/-- a history of operations -/
def Contents.run (c : Contents N B) : List (Op N B) → Contents N B × List (Out B)
  | [] => (c, [])
  | op :: ops => (((c.step op).1.run ops).1, (c.step op).2 :: ((c.step op).1.run ops).2)

end Verif.Store
