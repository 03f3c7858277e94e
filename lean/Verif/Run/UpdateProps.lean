import Verif.Run.UpdateModel
import Mathlib.Data.List.Infix

/-!
# C55: a resumed update run equals the uninterrupted run
-/

namespace GLU.Run

variable {L G M : Type}

theorem prefix_split {α : Type} {X A B : List α} (h : X <+: A ++ B) :
    X <+: A ∨ ∃ t, X = A ++ t ∧ t <+: B := by
  rcases List.prefix_or_prefix_of_prefix h (List.prefix_append A B) with h' | ⟨t, rfl⟩
  · exact Or.inl h'
  · exact Or.inr ⟨t, rfl, (List.prefix_append_right_inj A).1 h⟩

/-- The trajectory number of an event. -/
def Event.index : Event L G M → ℕ
  | .measured i _ | .openConfig i | .wroteConfig i _ | .openRand i | .wroteRand i _ => i

theorem iteration_index (p : Prog L G M) (start i : ℕ) (s : St L G) :
    ∀ e ∈ (iteration p start i s).1, e.index = i := by
  intro e he
  unfold iteration measure save at he
  simp only [List.mem_append] at he
  rcases he with he | he
  · split at he
    · simp only [List.mem_singleton] at he; rw [he]; rfl
    · simp at he
  · split at he
    · split at he
      · simp at he
      · simp only [List.mem_cons, List.not_mem_nil, or_false] at he
        rcases he with rfl | rfl | rfl | rfl <;> rfl
    · simp at he

theorem loop_index (p : Prog L G M) (start : ℕ) : ∀ n i (s : St L G), ∀ e ∈ (loop p start n i s).1,
    i ≤ e.index ∧ e.index < i + n := by
  intro n
  induction n with
  | zero => intro i s e he; simp [loop] at he
  | succ n ih =>
    intro i s e he
    simp only [loop, List.mem_append] at he
    rcases he with he | he
    · rw [iteration_index p start i s e he]; omega
    · have := ih _ _ e he; omega

theorem loop_add (p : Prog L G M) (start : ℕ) : ∀ m n i (s : St L G), loop p start (m + n) i s =
    ((loop p start m i s).1 ++ (loop p start n (i + m) (loop p start m i s).2).1,
      (loop p start n (i + m) (loop p start m i s).2).2) := by
  intro m
  induction m with
  | zero => intro n i s; simp [loop]
  | succ m ih =>
    intro n i s
    rw [show m + 1 + n = (m + n) + 1 by omega, loop, ih, loop]
    simp only [List.append_assoc, show i + 1 + m = i + (m + 1) by omega]

theorem iteration_start (p : Prog L G M) {start start' i : ℕ} (h : start < i) (h' : start' < i) (s : St L G) :
    iteration p start i s = iteration p start' i s := by
  have e : save p start i s = save p start' i s := by
    unfold save
    by_cases c : i % p.Nsave = 0
    · rw [if_pos (show i % p.Nsave = 0 ∧ i ≠ start from ⟨c, by omega⟩),
        if_pos (show i % p.Nsave = 0 ∧ i ≠ start' from ⟨c, by omega⟩)]
    · rw [if_neg (fun h => c h.1), if_neg (fun h => c h.1)]
  unfold iteration
  rw [e]

theorem loop_start (p : Prog L G M) {start start' : ℕ} : ∀ n i (s : St L G), start < i → start' < i →
    loop p start n i s = loop p start' n i s := by
  intro n
  induction n with
  | zero => intros; rfl
  | succ n ih =>
    intro i s h h'
    rw [loop, loop, iteration_start p h h', ih _ _ (by omega) (by omega)]

/-- The event is a measurement. -/
def Event.isMeasured : Event L G M → Prop
  | .measured _ _ => True
  | _ => False

theorem afterAll_measured (F : Files L G) (es : List (Event L G M)) (h : ∀ e ∈ es, e.isMeasured) :
    F.afterAll es = F := by
  unfold Files.afterAll
  induction es generalizing F with
  | nil => rfl
  | cons e es ih =>
    rw [List.foldl_cons, show F.after e = F by
      have := h e (List.mem_cons_self ..)
      cases e <;> first | rfl | exact this.elim]
    exact ih F fun e he => h e (List.mem_cons_of_mem _ he)

theorem afterAll_append (F : Files L G) (a b : List (Event L G M)) :
    F.afterAll (a ++ b) = (F.afterAll a).afterAll b := List.foldl_append ..

/-- What is before the first opened configuration file are measurements. -/
theorem prefix_measured (p : Prog L G M) (start : ℕ) : ∀ n i (s : St L G) (X : List (Event L G M)),
    X <+: (loop p start n i s).1 → (∀ j, Event.openConfig j ∉ X) → ∀ e ∈ X, e.isMeasured := by
  intro n
  induction n with
  | zero => intro i s X hX _ e he; rw [loop, List.prefix_nil] at hX; rw [hX] at he; simp at he
  | succ n ih =>
    intro i s X hX hno e he
    rw [loop] at hX
    dsimp only at hX
    set A := (iteration p start i s).1 with hA
    have hAm : ∀ Y : List (Event L G M), Y <+: A → (∀ j, Event.openConfig j ∉ Y) → ∀ e ∈ Y, e.isMeasured := by
      intro Y hY hno e he
      rw [hA] at hY
      unfold iteration save at hY
      dsimp only at hY
      have hms : ∀ e ∈ measure p i s.lat, e.isMeasured := by
        intro e he
        unfold measure at he
        split at he
        · simp only [List.mem_singleton] at he; rw [he]; trivial
        · simp at he
      split at hY
      · split at hY
        · rw [List.append_nil] at hY; exact hms e (hY.subset he)
        · rcases prefix_split hY with h | ⟨t, rfl, ht⟩
          · exact hms e (h.subset he)
          · cases t with
            | nil => rw [List.append_nil] at he; exact hms e he
            | cons a t =>
              rw [List.cons_prefix_cons] at ht
              exact absurd (List.mem_append_right _ (ht.1 ▸ List.mem_cons_self ..)) (hno i)
      · rw [List.append_nil] at hY; exact hms e (hY.subset he)
    rcases prefix_split hX with h | ⟨t, rfl, ht⟩
    · exact hAm X h hno e he
    · rcases List.mem_append.1 he with he | he
      · exact hAm A List.prefix_rfl (fun j hj => hno j (List.mem_append_left _ hj)) e he
      · exact ih _ _ t ht (fun j hj => hno j (List.mem_append_right _ hj)) e he

/-- **C55.** Take any run (from any trajectory number, lattice, generator and files) and any crash point, that is any
first part of its events. If the save of trajectory `i` was completed before the crash and the next save was not
begun, the run continued from the files left by the crash measures the saved lattice again if due, and then goes on
with exactly the events of the uninterrupted run after the save, to the same final lattice, generator and files. -/
theorem C55_resume (p : Prog L G M) (a : ℕ) (s0 : St L G) (E : List (Event L G M)) (sf : St L G)
    (hrun : trajectory p a s0 = some (E, sf)) (E1 : List (Event L G M)) (hcrash : E1 <+: E) (i : ℕ) (g : G)
    (hsaved : Event.wroteRand i g ∈ E1) (hlast : ∀ j > i, Event.openConfig j ∉ E1) (g' : G) (torn : Option G) :
    ∃ (l : L) (pre post : List (Event L G M)),
      E = pre ++ [.openConfig i, .wroteConfig i l, .openRand i, .wroteRand i g] ++ post ∧
      resume p (s0.files.afterAll E1) i g' torn = .runs (some (measure p i l ++ post, sf)) := by
  unfold trajectory at hrun
  split at hrun
  · simp at hrun
  next hz =>
  obtain ⟨hE, hsf⟩ := Prod.mk.inj (Option.some.inj hrun)
  have hi := loop_index p a _ _ s0 _ (hE ▸ hcrash.subset hsaved)
  simp only [Event.index] at hi
  obtain ⟨n, hn⟩ : ∃ n, p.iterations - a = (i - a) + (n + 1) := ⟨p.iterations - i - 1, by omega⟩
  rw [hn, loop_add] at hE hsf
  rw [show a + (i - a) = i by omega] at hE hsf
  dsimp only at hE hsf
  set A := (loop p a (i - a) a s0).1 with hA
  set si := (loop p a (i - a) a s0).2 with hsi
  rw [loop] at hE hsf
  dsimp only at hE hsf
  have hAidx : ∀ e ∈ A, e.index < i := fun e he => by
    have := loop_index p a _ _ s0 e he; omega
  -- the save took place
  have hmemE := hcrash.subset hsaved
  rw [← hE, List.mem_append, List.mem_append] at hmemE
  have hsv : i % p.Nsave = 0 ∧ i ≠ a ∧ (si.files.config i).isSome = false ∧ g = si.rng := by
    rcases hmemE with h | h | h
    · exact absurd (hAidx _ h) (by simp [Event.index])
    · unfold iteration measure save at h
      simp only [List.mem_append] at h
      rcases h with h | h
      · split at h <;> simp at h
      · split at h
        · next hc =>
          split at h
          · simp at h
          · next hc' =>
            simp only [List.mem_cons, List.not_mem_nil, or_false, reduceCtorEq, false_or] at h
            exact ⟨hc.1, hc.2, by simpa using hc', (Event.wroteRand.inj h).2⟩
        · simp at h
    · have := (loop_index p a _ _ _ _ h).1; simp [Event.index] at this
  obtain ⟨h1, h2, h3, rfl⟩ := hsv
  have hit : iteration p a i si = (measure p i si.lat ++ [.openConfig i, .wroteConfig i (p.reunit si.lat),
      .openRand i, .wroteRand i si.rng], ⟨(p.step (p.reunit si.lat) si.rng).1,
        (p.step (p.reunit si.lat) si.rng).2, si.files.afterAll (measure p i si.lat ++ [.openConfig i,
        .wroteConfig i (p.reunit si.lat), .openRand i, .wroteRand i si.rng])⟩) := by
    unfold iteration save
    rw [if_pos ⟨h1, h2⟩, if_neg (by rw [h3]; decide)]
  set C := (loop p a n (i + 1) (iteration p a i si).2).1 with hC
  rw [hit] at hE
  dsimp only at hE
  set B := measure p i si.lat ++ [Event.openConfig i, .wroteConfig i (p.reunit si.lat),
      .openRand i, .wroteRand i si.rng] with hB
  -- the files of the state before iteration i
  have hfiles : ∀ m k (s : St L G), (loop p a m k s).2.files = s.files.afterAll (loop p a m k s).1 := by
    intro m
    induction m with
    | zero => intro k s; rfl
    | succ m ih =>
      intro k s
      rw [loop]
      dsimp only
      rw [ih, afterAll_append]
      rfl
  -- where the crash was
  have hcut : ∃ X, E1 = A ++ B ++ X ∧ X <+: C := by
    rw [← hE, ← List.append_assoc] at hcrash
    rcases prefix_split hcrash with h | ⟨t, ht, htC⟩
    · -- a first part that contains the last event is everything
      rw [show A ++ B = (A ++ (measure p i si.lat ++ [Event.openConfig i, .wroteConfig i (p.reunit si.lat),
        .openRand i])) ++ [.wroteRand i si.rng] by simp [hB]] at h
      rcases prefix_split h with h' | ⟨t, ht, ht'⟩
      · exfalso
        have := h'.subset hsaved
        rw [List.mem_append] at this
        rcases this with h | h
        · exact absurd (hAidx _ h) (by simp [Event.index])
        · unfold measure at h
          split at h <;> simp at h
      · refine ⟨[], ?_, List.nil_prefix⟩
        cases t with
        | nil =>
          exfalso
          rw [ht, List.append_nil] at hsaved
          rw [List.mem_append] at hsaved
          rcases hsaved with h | h
          · exact absurd (hAidx _ h) (by simp [Event.index])
          · unfold measure at h
            split at h <;> simp at h
        | cons b t =>
          rw [List.cons_prefix_cons, List.prefix_nil] at ht'
          rw [ht, ht'.1, ht'.2]; simp [hB]
    · exact ⟨t, ht, htC⟩
  obtain ⟨X, hX, hXC⟩ := hcut
  have hXm : ∀ e ∈ X, e.isMeasured := by
    refine prefix_measured p a n (i + 1) _ X hXC fun j hj => ?_
    have := (loop_index p a _ _ _ _ (hXC.subset hj)).1
    exact hlast j (by simpa [Event.index] using this) (hX ▸ List.mem_append_right _ hj)
  have hF : s0.files.afterAll E1 = si.files.afterAll B := by
    rw [hX, afterAll_append, afterAll_measured _ X hXm, afterAll_append, ← hfiles]
  refine ⟨p.reunit si.lat, A ++ measure p i si.lat, C, ?_, ?_⟩
  · rw [← hE, hB]; simp
  · rw [hF]
    have hFc : (si.files.afterAll B).config i = some (some (p.reunit si.lat)) := by
      rw [hB, afterAll_append, afterAll_measured _ (measure p i si.lat) (by
        intro e he; unfold measure at he; split at he
        · simp only [List.mem_singleton] at he; rw [he]; trivial
        · simp at he)]
      simp [Files.afterAll, Files.after]
    have hFr : (si.files.afterAll B).rand i = some (some si.rng) := by
      rw [hB, afterAll_append]
      simp [Files.afterAll, Files.after]
    unfold resume
    rw [hFc, hFr]
    dsimp only
    unfold trajectory
    rw [if_neg (by rintro ⟨-, h⟩; exact hz ⟨by omega, h⟩), show p.iterations - i = n + 1 by omega, loop]
    have hit' : iteration p i i ⟨p.reunit si.lat, si.rng, si.files.afterAll B⟩ =
        (measure p i (p.reunit si.lat), ⟨(p.step (p.reunit si.lat) si.rng).1,
          (p.step (p.reunit si.lat) si.rng).2, si.files.afterAll B⟩) := by
      unfold iteration save
      rw [if_neg (by simp)]
      simp only [List.append_nil]
      rw [afterAll_measured _ (measure p i (p.reunit si.lat)) (by
        intro e he; unfold measure at he; split at he
        · simp only [List.mem_singleton] at he; rw [he]; trivial
        · simp at he)]
    rw [hit']
    dsimp only
    rw [loop_start p n (i + 1) _ (show i < i + 1 by omega) (show a < i + 1 by omega)]
    have hst : (iteration p a i si).2 = ⟨(p.step (p.reunit si.lat) si.rng).1,
          (p.step (p.reunit si.lat) si.rng).2, si.files.afterAll B⟩ := by rw [hit]
    rw [← hst, ← hC, hsf]

/-- The measurements among the events. -/
def measurements (es : List (Event L G M)) : List (ℕ × M) := es.filterMap fun
  | .measured i m => some (i, m)
  | _ => none

theorem measurements_append (a b : List (Event L G M)) :
    measurements (a ++ b) = measurements a ++ measurements b := List.filterMap_append ..

theorem measurements_save (p : Prog L G M) (start i : ℕ) (s : St L G) : measurements (save p start i s).1 = [] := by
  unfold save
  split
  · split <;> rfl
  · rfl

/-- **C55.** If making the links special unitary again does not change a lattice (as for exact arithmetic), the
lattices, generators and measurements of a run do not depend on the files that exist, so the continuation from any
complete save gives those of the uninterrupted run, whichever later files are left over. -/
theorem C55_exact (p : Prog L G M) (hre : ∀ l, p.reunit l = l) (start start' n i : ℕ) (l : L) (g : G)
    (F F' : Files L G) :
    measurements (loop p start n i ⟨l, g, F⟩).1 = measurements (loop p start' n i ⟨l, g, F'⟩).1 ∧
    (loop p start n i ⟨l, g, F⟩).2.lat = (loop p start' n i ⟨l, g, F'⟩).2.lat ∧
    (loop p start n i ⟨l, g, F⟩).2.rng = (loop p start' n i ⟨l, g, F'⟩).2.rng := by
  have hsv : ∀ start i (s : St L G), (save p start i s).2 = s.lat := by
    intro start i s
    unfold save
    split
    · split
      · rfl
      · exact hre _
    · rfl
  induction n generalizing i l g F F' with
  | zero => exact ⟨rfl, rfl, rfl⟩
  | succ n ih =>
    have key : ∀ (start : ℕ) (F : Files L G), ∃ F', iteration p start i ⟨l, g, F⟩ =
        (measure p i l ++ (save p start i ⟨l, g, F⟩).1, ⟨(p.step l g).1, (p.step l g).2, F'⟩) := by
      intro start F
      unfold iteration
      dsimp only
      rw [hsv]
      exact ⟨_, rfl⟩
    obtain ⟨F1, h1⟩ := key start F
    obtain ⟨F2, h2⟩ := key start' F'
    rw [loop, loop, h1, h2]
    dsimp only
    have := ih (i + 1) (p.step l g).1 (p.step l g).2 F1 F2
    refine ⟨?_, this.2⟩
    simp only [measurements_append, measurements_save, List.append_nil, this.1]

theorem after_config (F : Files L G) (e : Event L G M) (j : ℕ) (h : e.index ≠ j) :
    (F.after e).config j = F.config j := by
  cases e <;> simp only [Files.after] <;> (try rfl) <;> exact Function.update_of_ne (Ne.symm h) ..

theorem afterAll_config (F : Files L G) (es : List (Event L G M)) (j : ℕ) (h : ∀ e ∈ es, e.index ≠ j) :
    (F.afterAll es).config j = F.config j := by
  induction es generalizing F with
  | nil => rfl
  | cons e es ih =>
    have : F.afterAll (e :: es) = (F.after e).afterAll es := rfl
    rw [this, ih _ fun e he => h e (List.mem_cons_of_mem _ he), after_config F e j (h e (List.mem_cons_self ..))]

theorem loop_keeps (p : Prog L G M) (start j : ℕ) : ∀ n i (s : St L G), (s.files.config j).isSome →
    (loop p start n i s).2.files.config j = s.files.config j := by
  intro n
  induction n with
  | zero => intros; rfl
  | succ n ih =>
    intro i s h
    have hit : (iteration p start i s).2.files.config j = s.files.config j := by
      by_cases e : i = j
      · subst e
        have : (save p start i s).1 = [] := by
          unfold save
          split <;> rfl
        unfold iteration
        dsimp only
        rw [this, List.append_nil, afterAll_measured]
        intro e he
        unfold measure at he
        split at he
        · simp only [List.mem_singleton] at he; rw [he]; trivial
        · simp at he
      · exact afterAll_config _ _ _ fun e' he' => by
          rw [iteration_index p start i s e' he']; exact e
    rw [loop]
    dsimp only
    rw [ih _ _ (by rw [hit]; exact h), hit]

/-- **C55.** A configuration file left unfinished by a crash is never finished: every continuation, from any other
save and with any random sequence, leaves it as it is. -/
theorem C55_torn_fails (p : Prog L G M) (F : Files L G) (i j : ℕ) (g' : G) (torn : Option G)
    (h : F.config j = some none) (E : List (Event L G M)) (s : St L G)
    (hrun : resume p F i g' torn = .runs (some (E, s))) : s.files.config j = some none := by
  have key : ∀ l g, trajectory p i ⟨l, g, F⟩ = some (E, s) → s.files.config j = some none := by
    intro l g ht
    unfold trajectory at ht
    split at ht
    · simp at ht
    · have := congrArg Prod.snd (Option.some.inj ht)
      dsimp only at this
      rw [← this, loop_keeps p i j _ _ _ (by dsimp only; rw [h]; rfl)]
      exact h
  unfold resume at hrun
  split at hrun
  · split at hrun
    · exact key _ _ (Resumed.runs.inj hrun)
    · exact key _ _ (Resumed.runs.inj hrun)
    · split at hrun
      · exact key _ _ (Resumed.runs.inj hrun)
      · exact absurd hrun (by simp)
  · exact absurd hrun (by simp)

/-- **C55.** When the crash comes after the configuration and before the generator state, the continuation runs
without complaint with another random sequence. -/
theorem C55_rand_fails (p : Prog L G M) (F : Files L G) (i : ℕ) (l : L) (g' : G) (torn : Option G)
    (h : F.config i = some (some l)) (hr : F.rand i = none) :
    resume p F i g' torn = .runs (trajectory p i ⟨l, g', F⟩) := by
  unfold resume
  rw [h, hr]

/-- A run that adds the generator state to the lattice and counts the generator up; the lattice is made even when
written. -/
def demo : Prog ℤ ℤ ℤ := ⟨fun l g => (l + g, g + 1), fun l => l, fun l => l - l % 2, 7, 0, 3, 2⟩

/-- No files. -/
def noFiles : Files ℤ ℤ := ⟨fun _ => none, fun _ => none⟩

/-- The events of a run of seven updates, saved every three, measured every two. -/
def demoEvents : List (Event ℤ ℤ ℤ) :=
  [.measured 0 0, .measured 2 3, .openConfig 3, .wroteConfig 3 6, .openRand 3, .wroteRand 3 4,
    .measured 4 10, .measured 6 21, .openConfig 6, .wroteConfig 6 20, .openRand 6, .wroteRand 6 7]

theorem demo_events : (newRun demo 0 1 noFiles).map Prod.fst = some demoEvents := rfl

/-- A crash after the fourth update meets the hypotheses of `C55_resume` for the save of trajectory 3. -/
example : demoEvents.take 7 <+: demoEvents ∧ Event.wroteRand 3 4 ∈ demoEvents.take 7 ∧
    ∀ j > 3, Event.openConfig j ∉ demoEvents.take 7 := by
  refine ⟨List.take_prefix _ _, by simp [demoEvents], fun j hj => ?_⟩
  simp [demoEvents]
  omega

/-- **C55.** Concretely: after a crash between the two files of trajectory 3 the continuation measures other
values. -/
theorem C55_rand_witness : ∃ E s, resume demo (noFiles.afterAll (demoEvents.take 4)) 3 100 none =
    .runs (some (E, s)) ∧ Event.measured 4 106 ∈ E ∧ Event.measured 4 10 ∈ demoEvents := by
  refine ⟨_, _, rfl, ?_, ?_⟩
  · exact List.mem_cons_self ..
  · simp [demoEvents]

/-- **C55.** An interval of zero between saves or measurements is undefined behaviour in every run with something to
do. -/
theorem C55_zero_fails (p : Prog L G M) (start : ℕ) (s : St L G) (h : start < p.iterations)
    (h0 : p.Nmeasure = 0 ∨ p.Nsave = 0) : trajectory p start s = none := if_pos ⟨h, h0⟩

/-- **C74.** Every multiple of the save interval strictly inside of the run, for which no file exists, is saved:
configuration and generator state. -/
theorem C74_saved_partial (p : Prog L G M) (a : ℕ) (s0 : St L G) (E : List (Event L G M)) (sf : St L G)
    (hrun : trajectory p a s0 = some (E, sf)) (i : ℕ) (h1 : a < i) (h2 : i < p.iterations) (h3 : i % p.Nsave = 0)
    (hf : s0.files.config i = none) :
    ∃ l g, sf.files.config i = some (some l) ∧ Event.wroteConfig i l ∈ E ∧ Event.wroteRand i g ∈ E := by
  unfold trajectory at hrun
  split at hrun
  · simp at hrun
  obtain ⟨hE, hsf⟩ := Prod.mk.inj (Option.some.inj hrun)
  obtain ⟨n, hn⟩ : ∃ n, p.iterations - a = (i - a) + (n + 1) := ⟨p.iterations - i - 1, by omega⟩
  rw [hn, loop_add] at hE hsf
  rw [show a + (i - a) = i by omega] at hE hsf
  dsimp only at hE hsf
  rw [loop] at hE hsf
  dsimp only at hE hsf
  set si := (loop p a (i - a) a s0).2 with hsi
  have hfiles : ∀ m k (s : St L G), (loop p a m k s).2.files = s.files.afterAll (loop p a m k s).1 := by
    intro m
    induction m with
    | zero => intro k s; rfl
    | succ m ih =>
      intro k s
      rw [loop]
      dsimp only
      rw [ih, afterAll_append]
      rfl
  have hnone : si.files.config i = none := by
    rw [hsi, hfiles, afterAll_config _ _ _ fun e he => ?_, hf]
    have := loop_index p a _ _ s0 e he
    omega
  have hsv : (save p a i si).1 = [.openConfig i, .wroteConfig i (p.reunit si.lat), .openRand i,
      .wroteRand i si.rng] := by
    unfold save
    rw [if_pos ⟨h3, by omega⟩, if_neg (by rw [hnone]; simp)]
  refine ⟨p.reunit si.lat, si.rng, ?_, ?_, ?_⟩
  · have hit : (iteration p a i si).2.files.config i = some (some (p.reunit si.lat)) := by
      unfold iteration
      dsimp only
      rw [hsv, afterAll_append]
      simp [Files.afterAll, Files.after]
    rw [← hsf, loop_keeps p a i _ _ _ (by rw [hit]; rfl), hit]
  · rw [← hE]
    apply List.mem_append_right
    apply List.mem_append_left
    apply List.mem_append_right
    rw [hsv]; simp
  · rw [← hE]
    apply List.mem_append_right
    apply List.mem_append_left
    apply List.mem_append_right
    rw [hsv]; simp

/-- **C74.** The lattice after the last update is never saved, whatever the save interval: no file of the final
trajectory number is written. -/
theorem C74_fails (p : Prog L G M) (a : ℕ) (s0 : St L G) (E : List (Event L G M)) (sf : St L G)
    (hrun : trajectory p a s0 = some (E, sf)) :
    ∀ e ∈ E, e.index < p.iterations ∨ p.iterations < a := by
  unfold trajectory at hrun
  split at hrun
  · simp at hrun
  obtain ⟨hE, -⟩ := Prod.mk.inj (Option.some.inj hrun)
  intro e he
  have := loop_index p a _ _ s0 e (hE ▸ he)
  omega

end GLU.Run
