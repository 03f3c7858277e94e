import Verif.Alloc.Model

/-!
# What is meant by usable memory and by no memory being lost
-/

namespace GLU.Alloc

/-- No block has a number that was not handed out yet. -/
def Fresh (h : Heap) : Prop := ∀ x, h.req ≤ x → h.live x = false

/-- The same blocks are allocated in both memories: nothing is lost, nothing is released that should not be. -/
def SameBlocks (h h' : Heap) : Prop := ∀ x, h'.live x = h.live x

/-- `p` is a field of `L1` sites with `L2` matrices each: every pointer on the way to a matrix can be followed, and
two different matrices do not share memory, nor with a block that was there before. -/
def Usable (old h : Heap) (p : Ptr) (L1 L2 : ℕ) : Prop :=
  ∃ m : ℕ → ℕ → ℕ,
    (∀ i < L1, ∀ mu < L2, ∃ O, load p i h = some (O, h) ∧ load O mu h = some (Ptr.blk (m i mu), h) ∧
      h.live (m i mu) = true ∧ old.live (m i mu) = false) ∧
    (∀ i < L1, ∀ mu < L2, ∀ i' < L1, ∀ mu' < L2, m i mu = m i' mu' → i = i' ∧ mu = mu')

/-- How many requests a field of `L1` sites with `L2` matrices makes when all are granted. -/
def requests (L1 L2 : ℕ) : ℕ := 1 + L1 * (1 + L2)

/-- The requests with numbers `a`, …, `a + n - 1` are granted. -/
def Granted (E : Env) (a n : ℕ) : Prop := ∀ k < n, E.ok (a + k) = true

end GLU.Alloc
