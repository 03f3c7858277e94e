import Verif.IO.ChkModel

/-!
# The file format of the measurements: specification

What a program that reads the files relies on: all numbers are big-endian, 32-bit integers (signed for
the components of momenta) or 64-bit floating-point patterns; each array is preceded by its length, each
momentum by its number of components. A reader returns what it has read and what follows.
-/

namespace GLU.Cuts
open GLU.IO

/-- The number with the given base 256 digits, most significant first. -/
def bigEndian : List Byte → ℕ := List.foldl (fun n b => 256 * n + b.toNat) 0

/-- Read an unsigned number of `k` bytes. -/
def readNat (k : ℕ) (f : List Byte) : Option (ℕ × List Byte) :=
  if k ≤ f.length then some (bigEndian (f.take k), f.drop k) else none

/-- Read a 32-bit number in two's complement. -/
def readInt (f : List Byte) : Option (ℤ × List Byte) :=
  (readNat 4 f).map fun (n, r) => (if n < 2 ^ 31 then (n : ℤ) else (n : ℤ) - 2 ^ 32, r)

/-- Read a double. -/
def readDouble (f : List Byte) : Option (W64 × List Byte) :=
  (readNat 8 f).map fun (n, r) => (BitVec.ofNat 64 n, r)

/-- Read `n` things. -/
def readMany {α : Type} (one : List Byte → Option (α × List Byte)) :
    ℕ → List Byte → Option (List α × List Byte)
  | 0, f => some ([], f)
  | n + 1, f =>
    match one f with
    | none => none
    | some (x, r) => (readMany one n r).map fun (l, r) => (x :: l, r)

/-- Read a length and then as many things. -/
def readArray {α : Type} (one : List Byte → Option (α × List Byte)) (f : List Byte) :
    Option (List α × List Byte) :=
  match readNat 4 f with
  | none => none
  | some (n, r) => readMany one n r

/-- Read one thing and then another. -/
def readBoth {α β : Type} (p : List Byte → Option (α × List Byte)) (q : List Byte → Option (β × List Byte))
    (f : List Byte) : Option ((α × β) × List Byte) :=
  match p f with
  | none => none
  | some (x, r) => (q r).map fun (y, r) => ((x, y), r)

/-- A list of momenta: each is an array of signed components. -/
def readMomenta : List Byte → Option (List (List ℤ) × List Byte) := readArray (readArray readInt)

/-- A list of doubles. -/
def readDoubles : List Byte → Option (List W64 × List Byte) := readArray readDouble

/-- A complex number: real and imaginary part. -/
def readComplex : List Byte → Option ((W64 × W64) × List Byte) := readBoth readDouble readDouble

/-- A file: one thing and nothing after it. -/
def readFile {α : Type} (p : List Byte → Option (α × List Byte)) (f : List Byte) : Option α :=
  match p f with
  | some (x, []) => some x
  | _ => none

/-- A reader that never looks beyond what it consumes. -/
def Streams {α : Type} (p : List Byte → Option (α × List Byte)) : Prop :=
  ∀ f x r, p f = some (x, r) → ∀ g, p (f ++ g) = some (x, r ++ g)

end GLU.Cuts
