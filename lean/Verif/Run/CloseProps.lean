import Verif.Run.CloseModel
import Mathlib.Data.Finset.Basic
import Mathlib.Data.Finset.Card
import Mathlib.Tactic.Common

/-!
# C124: files opened while reading a configuration are closed
-/

namespace GLU.Run.Close
open GLU.IO

/-- Handles are not used twice: every open file was opened earlier. -/
def Sane (f : Files) : Prop := ∀ h ∈ f.isOpen, h < f.next

/-- The configurations that are made rather than read. -/
def Made (h : Head) : Prop := h = .UNIT ∨ h = .RANDOM ∨ h = .INSTANTON

/-- The reading in which the field is not granted although the file is there, its header is good and the machine
has the memory. -/
def Refused (w : World) (h : Head) : Prop :=
  w.opens = true ∧ read_header w h = true ∧ w.memory = true ∧ w.granted = false

instance (w : World) (h : Head) : Decidable (Refused w h) := by unfold Refused; infer_instance
instance (h : Head) : Decidable (Made h) := by unfold Made; infer_instance

theorem mayBeMissing_iff (h : Head) : mayBeMissing h = true ↔ Made h := by
  cases h <;> decide

theorem made_header {w : World} {h : Head} (hm : Made h) : read_header w h = true := by
  rcases hm with rfl | rfl | rfl <;> rfl
theorem made_config {w : World} {h : Head} (hm : Made h) : get_config_SUNC w h = true := by
  rcases hm with rfl | rfl | rfl <;> rfl
theorem made_checks {w : World} {h : Head} (hm : Made h) : checks w h = true := by
  rcases hm with rfl | rfl | rfl <;> rfl

/-- Opening and closing again. -/
theorem open_close {f : Files} (hs : Sane f) :
    fclose (some f.next) ⟨insert f.next f.isOpen, f.next + 1⟩ = .ok ⟨f.isOpen, f.next + 1⟩ := by
  have : f.next ∉ f.isOpen := fun h => lt_irrefl _ (hs _ h)
  simp [fclose, Finset.erase_insert this]

/-- The whole behaviour of one reading: undefined exactly for a made configuration without a file on a machine
with too little memory; otherwise the files open afterwards are those open before, and one more if the field was
refused. -/
theorem read_file_spec (w : World) (h : Head) (f : Files) (hs : Sane f) :
    (read_file w h f = .ub ∧ w.opens = false ∧ Made h ∧ w.memory = false) ∨
    (¬ (w.opens = false ∧ Made h ∧ w.memory = false) ∧ ∃ b n, f.next ≤ n ∧
      read_file w h f = .ok (⟨if Refused w h then insert f.next f.isOpen else f.isOpen, n⟩, b) ∧
      (Refused w h → n = f.next + 1) ∧
      (b = true ↔ (w.opens = true ∨ Made h) ∧ read_header w h = true ∧ w.memory = true ∧ w.granted = true ∧
        get_config_SUNC w h = true ∧ checks w h = true)) := by
  rcases w with ⟨o, hd, m, g, l, s⟩
  cases o
  · by_cases hm : Made h
    · have h1 := (mayBeMissing_iff h).2 hm
      cases m
      · left
        exact ⟨by simp [read_file, fopen, h1, made_header hm, fclose, Out.bind], rfl, hm, rfl⟩
      · right
        refine ⟨by simp, g, f.next, le_refl _, ?_, ?_, ?_⟩
        · cases g <;> simp [read_file, fopen, h1, made_header hm, made_config hm, made_checks hm, Refused]
        · rintro ⟨h0, -⟩; exact absurd h0 (by simp)
        · simp [hm, made_header hm, made_config hm, made_checks hm]
    · have h1 : mayBeMissing h = false := by
        rw [← Bool.not_eq_true, mayBeMissing_iff]; exact hm
      right
      refine ⟨fun h0 => hm h0.2.1, false, f.next, le_refl _, ?_, ?_, ?_⟩
      · simp [read_file, fopen, h1, Refused]
      · rintro ⟨h0, -⟩; exact absurd h0 (by simp)
      · simp [hm]
  · right
    have hc := open_close hs
    refine ⟨by simp, decide (read_header ⟨true, hd, m, g, l, s⟩ h = true ∧ m = true ∧ g = true ∧
      get_config_SUNC ⟨true, hd, m, g, l, s⟩ h = true ∧ checks ⟨true, hd, m, g, l, s⟩ h = true),
      f.next + 1, Nat.le_succ _, ?_, fun _ => rfl, ?_⟩
    · generalize h1 : read_header ⟨true, hd, m, g, l, s⟩ h = a
      generalize h2 : get_config_SUNC ⟨true, hd, m, g, l, s⟩ h = b
      generalize h3 : checks ⟨true, hd, m, g, l, s⟩ h = c
      cases a <;> cases m <;> cases g <;> cases b <;> cases c <;>
        simp [read_file, fopen, h1, h2, h3, Refused, hc, Out.bind]
    · simp

/-- C124. Nothing is done with a file that is not there and no file is closed twice, except when a configuration
that needs no file is asked for, the file is not there, and the memory of the machine is too small. -/
theorem C124_defined (w : World) (h : Head) (f : Files) (hs : Sane f) :
    read_file w h f ≠ .ub ↔ ¬ (w.opens = false ∧ Made h ∧ w.memory = false) := by
  rcases read_file_spec w h f hs with ⟨h1, h2⟩ | ⟨h1, b, n, -, h2, -⟩
  · simp [h1, h2]
  · simp [h1, h2]

/-- C124. A field is returned only if every step succeeded, and without a file only if none is needed. -/
theorem C124_accepted (w : World) (h : Head) (f f' : Files) (hs : Sane f)
    (hr : read_file w h f = .ok (f', true)) :
    (w.opens = true ∨ Made h) ∧ h ≠ .UNSUPPORTED ∧ w.memory = true ∧ w.granted = true := by
  rcases read_file_spec w h f hs with ⟨h1, -⟩ | ⟨-, b, n, -, h2, -, h3⟩
  · rw [h1] at hr; exact absurd hr (by simp)
  · rw [h2] at hr
    have hb : b = true := by simpa using (congrArg (fun x => match x with | Out.ok r => r.2 | _ => b) hr)
    obtain ⟨a1, a2, a3, a4, -⟩ := h3.1 hb
    refine ⟨a1, ?_, a3, a4⟩
    rintro rfl
    exact absurd a2 (by simp [read_header])

/-- C124, in part. However the steps turn out, after a reading exactly the files are open that were open before,
provided the field itself was granted. -/
theorem C124_closed_partial (w : World) (h : Head) (f : Files) (hs : Sane f) (hg : w.granted = true)
    (hu : ¬ (w.opens = false ∧ Made h ∧ w.memory = false)) :
    ∃ f' b, read_file w h f = .ok (f', b) ∧ f'.isOpen = f.isOpen ∧ Sane f' := by
  rcases read_file_spec w h f hs with ⟨-, h2⟩ | ⟨-, b, n, hn, h2, -⟩
  · exact absurd h2 hu
  · have : ¬ Refused w h := fun h0 => absurd h0.2.2.2 (by simp [hg])
    rw [if_neg this] at h2
    exact ⟨_, b, h2, rfl, fun i hi => lt_of_lt_of_le (hs i hi) hn⟩

/-- C124, in part: any number of readings one after the other, with any outcomes. The number of files left open
grows by one for each reading whose field was refused, and otherwise not at all; no file the caller had open is
closed. -/
theorem C124_history_partial (l : List (World × Head)) (f : Files) (hs : Sane f)
    (hu : ∀ p ∈ l, ¬ (p.1.opens = false ∧ Made p.2 ∧ p.1.memory = false)) :
    ∃ f' bs, readAll l f = .ok (f', bs) ∧ bs.length = l.length ∧ Sane f' ∧ f.isOpen ⊆ f'.isOpen ∧
      f'.isOpen.card = f.isOpen.card + l.countP (fun p => decide (Refused p.1 p.2)) := by
  induction l generalizing f with
  | nil => exact ⟨f, [], rfl, rfl, hs, Finset.Subset.refl _, by simp⟩
  | cons p l ih =>
    obtain ⟨w, h⟩ := p
    rcases read_file_spec w h f hs with ⟨-, h2⟩ | ⟨-, b, n, hn, h2, hr, -⟩
    · exact absurd h2 (hu (w, h) (by simp))
    · have hs' : Sane ⟨if Refused w h then insert f.next f.isOpen else f.isOpen, n⟩ := by
        intro i hi
        by_cases hc : Refused w h
        · simp only [hc, if_true, Finset.mem_insert] at hi
          have := hr hc
          rcases hi with rfl | hi
          · simp [this]
          · exact lt_of_lt_of_le (hs i hi) hn
        · simp only [hc, if_false] at hi
          exact lt_of_lt_of_le (hs i hi) hn
      obtain ⟨f', bs, e, e1, e2, e3, e4⟩ := ih _ hs' fun p hp => hu p (List.mem_cons_of_mem _ hp)
      have hf : f.next ∉ f.isOpen := fun h => lt_irrefl _ (hs _ h)
      refine ⟨f', b :: bs, ?_, by simp [e1], e2, ?_, ?_⟩
      · simp [readAll, h2, Out.bind, e]
      · refine Finset.Subset.trans ?_ e3
        by_cases hc : Refused w h <;> simp [hc]
      · rw [e4]
        by_cases hc : Refused w h
        · simp [hc, Finset.card_insert_of_notMem hf]; omega
        · simp [hc]

/-- A process with three files open. -/
def three : Files := ⟨{0, 1, 2}, 3⟩
theorem sane_three : Sane three := by unfold Sane three; decide

/-- Non-vacuity: a history of a good reading, a missing file, a bad header, and a refused field leaves one file
more. -/
example : (match readAll [(⟨true, true, true, true, true, true⟩, .NERSC),
      (⟨false, true, true, true, true, true⟩, .ILDG_SCIDAC), (⟨true, false, true, true, true, true⟩, .MILC),
      (⟨true, true, true, false, true, true⟩, .HIREP), (⟨false, true, true, true, true, true⟩, .UNIT)] three with
    | .ok r => (r.1.isOpen, r.2) | _ => (∅, [])) = ({0, 1, 2, 5}, [true, false, false, false, true]) := by
  decide

/-- C124 fails: asking for the unit field (or a random one, or the instanton) on a lattice the machine has no
memory for closes the file that was never opened. -/
theorem C124_missing_fails : ∃ (w : World) (h : Head) (f : Files), Sane f ∧ Made h ∧ w.opens = false ∧
    read_file w h f = .ub :=
  ⟨⟨false, true, false, true, true, true⟩, .UNIT, three, sane_three, by decide, rfl, by
    simp [read_file, fopen, mayBeMissing, read_header, fclose, Out.bind]⟩

/-- C124 fails: when the field is refused the file stays open, for every kind of header that is supported. -/
theorem C124_leak_fails (h : Head) (hh : h ≠ .UNSUPPORTED) (f : Files) (hs : Sane f) : ∃ w f',
    w.opens = true ∧ read_file w h f = .ok (f', false) ∧ f'.isOpen ≠ f.isOpen := by
  refine ⟨⟨true, true, true, false, true, true⟩, ⟨insert f.next f.isOpen, f.next + 1⟩, rfl, ?_, ?_⟩
  · cases h <;> first | exact absurd rfl hh | simp [read_file, fopen, read_header]
  · intro e
    have : f.next ∈ f.isOpen := by rw [← e]; simp
    exact lt_irrefl _ (hs _ this)

end GLU.Run.Close
