import Verif.Sched.TeamModel

/-!
# What the team is to compute

One pass of a loop done by nobody in particular: the columns hold, for each thread, the sum of what its sites have
contributed in this pass so far, in the order of the sites. No array, no clearing, no barriers.
-/

namespace GLU.Sched.Team

variable {V : Type} [Add V] [Zero V] {n : ℕ}

/-- After `p` parts of pass `k`: the numbers read, and the sums by column and thread. -/
def pass (A : Loop n V) (k : ℕ) : ℕ → List V × (ℕ → Fin n → V)
  | 0 => ([], fun _ _ => 0)
  | p + 1 =>
    let s := pass A k p
    match A.part k p s.1 with
    | none => s
    | some (rd, ad) =>
      (s.1 ++ rd.flatMap fun c => List.ofFn fun t => s.2 c t,
        fun c t => if c ∈ ad then (A.contrib k p t c).foldl (· + ·) (s.2 c t) else s.2 c t)

/-- Columns are narrower than the distance between threads, a column is not added to in the part in which it is read,
and every entry is cleared by some thread. -/
structure Loop.Sound (A : Loop n V) : Prop where
  width : ∀ k p seen rd ad, A.part k p seen = some (rd, ad) → ∀ c, c ∈ rd ∨ c ∈ ad → c < A.CLINE
  apart : ∀ k p seen rd ad, A.part k p seen = some (rd, ad) → ∀ c ∈ rd, c ∉ ad
  once : ∀ k p seen rd ad, A.part k p seen = some (rd, ad) → ad.Nodup
  cleared : ∀ c < A.CLINE, ∀ t : Fin n, ∃ i, c + A.CLINE * t ∈ A.share i

/-- Two threads are about to access the same entry, and one of them to change it: a data race. -/
def Racing {S : Type} (s : State n S V) : Prop :=
  ∃ i j a b r r', i ≠ j ∧ s.conf.rest i = a :: r ∧ s.conf.rest j = b :: r' ∧ a.loc = b.loc ∧
    (∀ l, a ≠ .read l ∨ b ≠ .read l)

end GLU.Sched.Team
