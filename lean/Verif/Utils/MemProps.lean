import Verif.Utils.MemModel

/-!
# C54: the choice of the input/output mode
-/

namespace GLU.Utils

/-- The answer when nothing has been asked before. -/
def fresh (s : Setup) (t : Output) : Speed := (have_memory_readers_writers s none t).1

/-- Formats with a memory estimate: the ones the readers and writers ask for. -/
def Estimated (t : Output) : Prop := t ≠ .NO_OUTPUT ∧ t ≠ .HIREP ∧ t ≠ .CERN

theorem answers_some (s : Setup) (v : Speed) (l : List Output) :
    answers s (some v) l = List.replicate l.length v := by
  induction l with
  | nil => rfl
  | cons t l ih => simp only [answers, have_memory_readers_writers, List.length_cons, List.replicate_succ, ih]

theorem estimated_some (s : Setup) {t : Output} (h : Estimated t) : ∃ m, s.expensive_more t = some m := by
  obtain ⟨h1, h2, h3⟩ := h
  cases t <;> first | exact ⟨_, rfl⟩ | contradiction

/-- **C54.** Asking again gives the first answer: in a sequence of questions every answer is the one for the first
format asked about. So the answers do not depend on the history as long as one format is used. -/
theorem C54_first_partial (s : Setup) (t : Output) (l : List Output) (h : Estimated t) :
    answers s none (t :: l) = List.replicate (l.length + 1) (fresh s t) := by
  obtain ⟨m, hm⟩ := estimated_some s h
  have : have_memory_readers_writers s none t = (fresh s t, some (fresh s t)) := by
    unfold fresh have_memory_readers_writers
    rw [hm]
    dsimp only
    split <;> rfl
  rw [answers, this, answers_some, List.replicate_succ]

/-- The answer is meant as: fast only if the estimate for this format fits in memory. -/
theorem C54_fresh_fits (s : Setup) (t : Output) (h : Estimated t) :
    fresh s t = .FAST ↔ ∃ m, s.expensive_more t = some m ∧ m < s.memory := by
  obtain ⟨m, hm⟩ := estimated_some s h
  unfold fresh have_memory_readers_writers
  rw [hm]
  dsimp only
  by_cases c : m < s.memory
  · rw [if_pos c]; simp [c]
  · rw [if_neg c]; simp [c]

/-- **C54.** The answer for the full matrix format is fast, though it does not fit, when a packed format that fits
was asked about before: a history changes the answer. -/
theorem C54_history_fails : ∃ s : Setup, fresh s .NCxNC = .SLOW ∧
    answers s none [.SMALL, .NCxNC] = [.FAST, .FAST] ∧ answers s none [.NCxNC, .SMALL] = [.SLOW, .SLOW] ∧
    fresh s .SMALL = .FAST := by
  refine ⟨⟨3, 4, 128 * 64 ^ 3, 32 * 10 ^ 9⟩, ?_, ?_, ?_, ?_⟩ <;> decide

/-- **C54.** For a format without an estimate the answer itself changes when the question is repeated. -/
theorem C54_repeat_fails (s : Setup) : answers s none [.CERN, .CERN] = [.SLOW, .FAST] := rfl

example : Estimated .SCIDAC ∧ answers ⟨3, 4, 16 ^ 4, 10 ^ 9⟩ none [.SCIDAC, .SCIDAC, .GAUGE] = [.FAST, .FAST, .FAST] := by
  refine ⟨⟨by decide, by decide, by decide⟩, by decide⟩

end GLU.Utils
