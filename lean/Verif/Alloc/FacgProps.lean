import Verif.Alloc.Props

/-!
# C119, continued: the conjugate gradient for Landau gauge
-/

namespace GLU.Alloc

/-- One turn of the loop that allocates the conjugate directions. -/
abbrev cgBody (E : Env) (sn io : Ptr) (i : ℕ) (flag : Bool) : Prog Bool :=
  andThen (load sn i) fun old =>
  andThen (GLU_malloc E old 0) fun q =>
  andThen (store sn i q.2) fun _ =>
  if q.1 = true then ret true
  else
    andThen (load io i) fun old =>
    andThen (GLU_malloc E old 0) fun q =>
    andThen (store io i q.2) fun _ =>
    ret (flag || q.1)

/-- The memory after the first `i` turns, the first of the two tables being block `s`, as long as the first
request of every turn was granted. -/
structure Dirs (E : Env) (h : Heap) (s H i : ℕ) (flag : Bool) (h' : Heap) : Prop where
  req : h'.req = s + 2 + 2 * i
  live : ∀ x, h'.live x = if s ≤ x ∧ x < s + 2 + 2 * i then E.ok x else h.live x
  size_s : h'.size s = H
  size_o : h'.size (s + 1) = H
  cell_s : ∀ j < i, h'.cell s j = Ptr.blk (s + 2 + 2 * j)
  rest_s : ∀ j, i ≤ j → h'.cell s j = Ptr.garbage
  cell_o : ∀ j < i, h'.cell (s + 1) j = val E Ptr.garbage (s + 3 + 2 * j)
  rest_o : ∀ j, i ≤ j → h'.cell (s + 1) j = Ptr.garbage
  flag_iff : flag = true ↔ ∃ j < i, E.ok (s + 3 + 2 * j) = false

theorem put_blk (h : Heap) (b i : ℕ) (q : Ptr) (x j : ℕ) :
    (put h b i q).cell x j = if x = b ∧ j = i then q else h.cell x j := rfl

theorem cgBody_run {E : Env} {h : Heap} {s H i : ℕ} {flag : Bool} {h' : Heap} (hi : i < H)
    (hs : E.ok s = true) (ho : E.ok (s + 1) = true) (hD : Dirs E h s H i flag h')
    (hk : E.ok (s + 2 + 2 * i) = true) :
    ∃ f h'', cgBody E (Ptr.blk s) (Ptr.blk (s + 1)) i flag h' = some (f, h'') ∧ Dirs E h s H (i + 1) f h'' := by
  have ls : h'.live s = true := by rw [hD.live, if_pos (by omega), hs]
  have lo : h'.live (s + 1) = true := by rw [hD.live, if_pos (by omega), ho]
  have e1 := load_blk (h := h') ls (by rw [hD.size_s]; exact hi)
  have e2 := GLU_malloc_apply E (h'.cell s i) 0 h'
  have hv : val E (h'.cell s i) h'.req = Ptr.blk (s + 2 + 2 * i) := by rw [hD.req, val, if_pos hk]
  rw [hv] at e2
  have e3 := store_blk (h := grown E h' 0) (b := s) (i := i) (Ptr.blk (s + 2 + 2 * i))
    (by show (if s = h'.req then _ else h'.live s) = true; rw [if_neg (by rw [hD.req]; omega), ls])
    (by show i < (if s = h'.req then _ else h'.size s)
        rw [if_neg (by rw [hD.req]; omega), hD.size_s]; exact hi)
  generalize hh2 : put (grown E h' 0) s i (Ptr.blk (s + 2 + 2 * i)) = h2 at e3
  have r2 : h2.req = s + 2 + 2 * i + 1 := by subst hh2; show h'.req + 1 = _; rw [hD.req]
  have l2 : ∀ x, h2.live x = if x = s + 2 + 2 * i then true else h'.live x := by
    intro x; subst hh2
    show (if x = h'.req then E.ok h'.req else h'.live x) = _
    rw [hD.req, hk]
  have s2 : ∀ x, x ≠ s + 2 + 2 * i → h2.size x = h'.size x := by
    intro x hx; subst hh2
    show (if x = h'.req then 0 else h'.size x) = _
    rw [if_neg (by rw [hD.req]; exact hx)]
  have c2 : ∀ x j, h2.cell x j = if x = s ∧ j = i then Ptr.blk (s + 2 + 2 * i) else
      if x = s + 2 + 2 * i then Ptr.garbage else h'.cell x j := by
    intro x j; subst hh2
    show (if x = s ∧ j = i then _ else if x = h'.req then _ else h'.cell x j) = _
    rw [hD.req]
  have e4 := load_blk (h := h2) (b := s + 1) (i := i) (by rw [l2, if_neg (by omega), lo])
    (by rw [s2 _ (by omega), hD.size_o]; exact hi)
  have hco : h2.cell (s + 1) i = Ptr.garbage := by
    rw [c2, if_neg (by omega), if_neg (by omega), hD.rest_o i le_rfl]
  rw [hco] at e4
  have e5 := GLU_malloc_apply E Ptr.garbage 0 h2
  have e6 := store_blk (h := grown E h2 0) (b := s + 1) (i := i) (val E Ptr.garbage h2.req)
    (by show (if s + 1 = h2.req then _ else h2.live (s + 1)) = true
        rw [if_neg (by omega), l2, if_neg (by omega), lo])
    (by show i < (if s + 1 = h2.req then _ else h2.size (s + 1))
        rw [if_neg (by omega), s2 _ (by omega), hD.size_o]; exact hi)
  refine ⟨flag || !E.ok h2.req, put (grown E h2 0) (s + 1) i (val E Ptr.garbage h2.req), ?_, ?_⟩
  · rw [cgBody, andThen_some e1, andThen_some e2]
    simp only
    rw [andThen_some e3]
    simp only [hD.req, hk, Bool.not_true, Bool.false_eq_true, if_false]
    rw [andThen_some e4, andThen_some e5]
    simp only
    rw [andThen_some e6]
    rfl
  · have cf : ∀ x j, x < s + 2 → (put (grown E h2 0) (s + 1) i (val E Ptr.garbage h2.req)).cell x j
        = if x = s + 1 ∧ j = i then val E Ptr.garbage (s + 3 + 2 * i) else
          if x = s ∧ j = i then Ptr.blk (s + 2 + 2 * i) else h'.cell x j := by
      intro x j hx
      show (if x = s + 1 ∧ j = i then val E Ptr.garbage h2.req else
        if x = h2.req then Ptr.garbage else h2.cell x j) = _
      rw [if_neg (show ¬ x = h2.req by omega), c2, if_neg (show ¬ x = s + 2 + 2 * i by omega), r2,
        show s + 2 + 2 * i + 1 = s + 3 + 2 * i by omega]
    refine ⟨?_, fun x => ?_, ?_, ?_, fun j hj => ?_, fun j hj => ?_, fun j hj => ?_, fun j hj => ?_, ?_⟩
    · show h2.req + 1 = _
      omega
    · show (if x = h2.req then E.ok h2.req else h2.live x) = _
      by_cases h1 : x = h2.req
      · rw [if_pos h1, if_pos (by omega), h1]
      · rw [if_neg h1, l2]
        by_cases h3 : x = s + 2 + 2 * i
        · rw [if_pos h3, if_pos (by omega), h3, hk]
        · rw [if_neg h3, hD.live]
          by_cases h4 : s ≤ x ∧ x < s + 2 + 2 * i
          · rw [if_pos h4, if_pos (by omega)]
          · rw [if_neg h4, if_neg (by omega)]
    · show (if s = h2.req then 0 else h2.size s) = H
      rw [if_neg (by omega), s2 _ (by omega), hD.size_s]
    · show (if s + 1 = h2.req then 0 else h2.size (s + 1)) = H
      rw [if_neg (by omega), s2 _ (by omega), hD.size_o]
    · rw [cf _ _ (by omega), if_neg (by omega)]
      by_cases hji : j = i
      · rw [if_pos ⟨rfl, hji⟩, hji]
      · rw [if_neg (by omega), hD.cell_s j (by omega)]
    · rw [cf _ _ (by omega), if_neg (by omega), if_neg (by omega), hD.rest_s j (by omega)]
    · rw [cf _ _ (by omega)]
      by_cases hji : j = i
      · rw [if_pos ⟨rfl, hji⟩, hji]
      · rw [if_neg (by omega), if_neg (by omega), hD.cell_o j (by omega)]
    · rw [cf _ _ (by omega), if_neg (by omega), if_neg (by omega), hD.rest_o j (by omega)]
    · simp only [Bool.or_eq_true, hD.flag_iff, Bool.not_eq_true', r2]
      constructor
      · rintro (⟨j, h1, h3⟩ | h3)
        · exact ⟨j, by omega, h3⟩
        · exact ⟨i, by omega, by rw [show s + 3 + 2 * i = s + 2 + 2 * i + 1 by omega]; exact h3⟩
      · rintro ⟨j, h1, h3⟩
        by_cases hji : j = i
        · right
          rw [hji, show s + 3 + 2 * i = s + 2 + 2 * i + 1 by omega] at h3
          exact h3
        · exact Or.inl ⟨j, by omega, h3⟩

/-- Before the loop. -/
theorem dirs_zero {E : Env} {h : Heap} {H : ℕ} (hs : E.ok (h.req) = true) (ho : E.ok (h.req + 1) = true) :
    Dirs E h h.req H 0 false (grown E (grown E h H) H) := by
  refine ⟨rfl, fun x => ?_, ?_, ?_, by omega, fun j _ => ?_, by omega, fun j _ => ?_, by simp⟩
  · show (if x = h.req + 1 then E.ok (h.req + 1) else if x = h.req then E.ok h.req else h.live x) = _
    by_cases h1 : x = h.req + 1
    · rw [if_pos h1, if_pos (by omega), h1]
    · rw [if_neg h1]
      by_cases h2 : x = h.req
      · rw [if_pos h2, if_pos (by omega), h2]
      · rw [if_neg h2, if_neg (by omega)]
  · show (if h.req = h.req + 1 then H else if h.req = h.req then H else _) = H
    rw [if_neg (by omega), if_pos rfl]
  · show (if h.req + 1 = h.req + 1 then H else _) = H
    rw [if_pos rfl]
  · show (if h.req = h.req + 1 then Ptr.garbage else if h.req = h.req then Ptr.garbage else _) = _
    rw [if_neg (by omega), if_pos rfl]
  · show (if h.req + 1 = h.req + 1 then Ptr.garbage else _) = _
    rw [if_pos rfl]

/-- Releasing what a table points to. -/
theorem free_dirs {h : Heap} {b H : ℕ} {c : ℕ → ℕ} (hb : h.live b = true) (hs : h.size b = H)
    (hc : ∀ j < H, h.cell b j = Ptr.blk (c j) ∨ h.cell b j = Ptr.null)
    (hl : ∀ j < H, h.cell b j = Ptr.blk (c j) → h.live (c j) = true) (hcb : ∀ j, c j ≠ b)
    (hinj : ∀ i j, c i = c j → i = j) :
    ∃ l, loop H (fun i (_ : Unit) => andThen (load (Ptr.blk b) i) release) () h = some ((), marked h l) ∧
      ∀ x, l x = true ↔ h.live x = true ∧ ∀ j < H, h.cell b j = Ptr.blk (c j) → x ≠ c j := by
  obtain ⟨_, h', e, l, rfl, hl'⟩ := loop_inv (fun i (_ : Unit) h' => ∃ l, h' = marked h l ∧
    ∀ x, l x = true ↔ h.live x = true ∧ ∀ j < i, h.cell b j = Ptr.blk (c j) → x ≠ c j) H
    (fun i (_ : Unit) => andThen (load (Ptr.blk b) i) release) () h
    ⟨h.live, rfl, fun x => by simp⟩ (by
      rintro i hi - - ⟨l, rfl, hl'⟩
      have lb : (marked h l).live b = true := (hl' b).2 ⟨hb, fun j _ _ => (hcb j).symm⟩
      have e1 := load_blk (h := marked h l) (b := b) (i := i) lb (by show i < h.size b; omega)
      rcases hc i hi with h1 | h1
      · have e2 : load (Ptr.blk b) i (marked h l) = some (Ptr.blk (c i), marked h l) := by
          rw [e1]; show some (h.cell b i, _) = _; rw [h1]
        have lc : (marked h l).live (c i) = true := by
          refine (hl' _).2 ⟨hl i hi h1, fun j hj _ hji => ?_⟩
          have := hinj _ _ hji
          omega
        refine ⟨(), _, ((andThen_some e2).trans (release_blk lc)), _, rfl, fun x => ?_⟩
        show (if x = c i then false else l x) = true ↔ _
        by_cases hx : x = c i
        · rw [if_pos hx]
          simp only [Bool.false_eq_true, false_iff, not_and]
          intro _ hall
          exact hall i (by omega) h1 hx
        · rw [if_neg hx, hl']
          constructor
          · rintro ⟨h3, h4⟩
            refine ⟨h3, fun j hj hjc => ?_⟩
            by_cases hji : j = i
            · rw [hji]; exact hx
            · exact h4 j (by omega) hjc
          · rintro ⟨h3, h4⟩
            exact ⟨h3, fun j hj => h4 j (by omega)⟩
      · have e2 : load (Ptr.blk b) i (marked h l) = some (Ptr.null, marked h l) := by
          rw [e1]; show some (h.cell b i, _) = _; rw [h1]
        refine ⟨(), _, ((andThen_some e2).trans rfl), _, rfl, fun x => ?_⟩
        rw [hl']
        constructor
        · rintro ⟨h3, h4⟩
          refine ⟨h3, fun j hj hjc => ?_⟩
          by_cases hji : j = i
          · rw [hji, h1] at hjc; cases hjc
          · exact h4 j (by omega) hjc
        · rintro ⟨h3, h4⟩
          exact ⟨h3, fun j hj => h4 j (by omega)⟩)
  exact ⟨l, e, hl'⟩

/-- The allocation when the tables and the first request of every turn are granted. -/
theorem allocate_dirs {E : Env} {h : Heap} {H : ℕ} (hG : Granted E h.req 3)
    (hk : ∀ i < H, E.ok (h.req + 3 + 2 * i) = true) :
    ∃ f h', allocate_temp_lg E H h
        = some ((!f, ⟨Ptr.blk (h.req + 1), Ptr.blk (h.req + 2), Ptr.blk h.req⟩), h') ∧
      Dirs E (grown E h 0) (h.req + 1) H H f h' := by
  have k0 : E.ok h.req = true := hG 0 (by omega)
  have k1 : E.ok (h.req + 1) = true := hG 1 (by omega)
  have k2 : E.ok (h.req + 2) = true := hG 2 (by omega)
  obtain ⟨f, h', e, hD⟩ := loop_inv (Dirs E (grown E h 0) (h.req + 1) H) H
    (cgBody E (Ptr.blk (h.req + 1)) (Ptr.blk (h.req + 2))) false _
    (dirs_zero (E := E) (h := grown E h 0) (H := H) k1 k2) (fun i hi s h' hD =>
      cgBody_run hi k1 k2 hD (by
        have := hk i hi
        rwa [show h.req + 1 + 2 + 2 * i = h.req + 3 + 2 * i by omega]))
  refine ⟨f, h', ?_, hD⟩
  have e0 := malloc_apply E 0 h
  rw [if_pos k0] at e0
  have e1 := GLU_malloc_apply E Ptr.null H (grown E h 0)
  rw [show (grown E h 0).req = h.req + 1 from rfl, val, if_pos k1, k1] at e1
  have e2 := GLU_malloc_apply E Ptr.null H (grown E (grown E h 0) H)
  rw [show (grown E (grown E h 0) H).req = h.req + 2 from rfl, val, if_pos k2, k2] at e2
  rw [allocate_temp_lg, andThen_some e0, if_neg (by simp), andThen_some e1]
  simp only [Bool.not_true, Bool.false_eq_true, if_false]
  rw [andThen_some e2]
  simp only [Bool.not_true, Bool.false_eq_true, if_false]
  rw [andThen_some e]
  rfl

theorem val_cases {E : Env} (k : ℕ) (h : E.aligned = false ∨ E.ok k = true) :
    val E Ptr.garbage k = if E.ok k = true then Ptr.blk k else Ptr.null := by
  unfold val
  rcases h with h | h
  · rw [h]; simp
  · rw [h]; simp

/-- The release when no pointer is left unset. -/
theorem free_lg_ok {E : Env} {h : Heap} {H : ℕ} {f : Bool} {h' : Heap} (hf : Fresh h) (hG : Granted E h.req 3)
    (hk : ∀ i < H, E.ok (h.req + 3 + 2 * i) = true)
    (ho : E.aligned = false ∨ ∀ i < H, E.ok (h.req + 4 + 2 * i) = true)
    (hD : Dirs E (grown E h 0) (h.req + 1) H H f h') :
    ∃ h'', free_temp_lg ⟨Ptr.blk (h.req + 1), Ptr.blk (h.req + 2), Ptr.blk h.req⟩ H h' = some ((), h'') ∧
      SameBlocks h h'' := by
  have k0 : E.ok h.req = true := hG 0 (by omega)
  have k1 : E.ok (h.req + 1) = true := hG 1 (by omega)
  have k2 : E.ok (h.req + 2) = true := hG 2 (by omega)
  have hlv : ∀ x, h'.live x = if h.req ≤ x ∧ x < h.req + 3 + 2 * H then E.ok x else h.live x := by
    intro x
    rw [hD.live]
    by_cases h1 : h.req + 1 ≤ x ∧ x < h.req + 1 + 2 + 2 * H
    · rw [if_pos h1, if_pos (by omega)]
    · rw [if_neg h1]
      show (if x = h.req then E.ok h.req else h.live x) = _
      by_cases h2 : x = h.req
      · rw [if_pos h2, if_pos (by omega), h2]
      · rw [if_neg h2, if_neg (by omega)]
  have hc2 : ∀ j < H, h'.cell (h.req + 2) j
      = if E.ok (h.req + 4 + 2 * j) = true then Ptr.blk (h.req + 4 + 2 * j) else Ptr.null := by
    intro j hj
    rw [show h.req + 2 = h.req + 1 + 1 from rfl, hD.cell_o j hj,
      show h.req + 1 + 3 + 2 * j = h.req + 4 + 2 * j by omega]
    exact val_cases _ (ho.imp id fun h => h j hj)
  -- the array of sums
  have l0 : h'.live h.req = true := by rw [hlv, if_pos (by omega), k0]
  generalize hA : (fun x => if x = h.req then false else h'.live x) = A
  have eA := release_blk l0
  rw [hA] at eA
  have hA' : ∀ x, A x = if x = h.req then false else h'.live x := fun x => by rw [← hA]
  -- the first table
  obtain ⟨l1, f1, g1⟩ := free_dirs (h := marked h' A) (b := h.req + 1) (H := H)
    (c := fun j => h.req + 3 + 2 * j)
    (by show A _ = true; rw [hA', if_neg (by omega), hlv, if_pos (by omega), k1]) hD.size_s
    (fun j hj => Or.inl (by
      show h'.cell _ _ = _
      rw [hD.cell_s j hj, show h.req + 1 + 2 + 2 * j = h.req + 3 + 2 * j by omega]))
    (fun j hj _ => by
      show A _ = true
      rw [hA', if_neg (by omega), hlv, if_pos (by omega), hk j hj])
    (fun j => by omega) (fun i j hij => by omega)
  -- the second table
  obtain ⟨l2, f2, g2⟩ := free_dirs (h := marked h' l1) (b := h.req + 2) (H := H)
    (c := fun j => h.req + 4 + 2 * j)
    (by
      show l1 _ = true
      refine (g1 _).2 ⟨?_, fun j _ _ => by omega⟩
      show A _ = true
      rw [hA', if_neg (by omega), hlv, if_pos (by omega), k2]) hD.size_o
    (fun j hj => by
      show h'.cell _ _ = _ ∨ h'.cell _ _ = _
      rw [hc2 j hj]
      by_cases hjk : E.ok (h.req + 4 + 2 * j) = true
      · rw [if_pos hjk]; exact Or.inl rfl
      · rw [if_neg hjk]; exact Or.inr rfl)
    (fun j hj hjc => by
      show l1 _ = true
      refine (g1 _).2 ⟨?_, fun i _ _ => by omega⟩
      show A _ = true
      rw [hA', if_neg (by omega), hlv, if_pos (by omega)]
      by_contra hjk
      change h'.cell _ _ = _ at hjc
      rw [hc2 j hj, if_neg hjk] at hjc
      cases hjc)
    (fun j => by omega) (fun i j hij => by omega)
  have m2 : (marked h' l2).live (h.req + 2) = true := by
    refine (g2 _).2 ⟨?_, fun j _ _ => by omega⟩
    refine (g1 _).2 ⟨?_, fun j _ _ => by omega⟩
    show A _ = true
    rw [hA', if_neg (by omega), hlv, if_pos (by omega), k2]
  have m1 : (marked h' l2).live (h.req + 1) = true := by
    refine (g2 _).2 ⟨?_, fun j _ _ => by omega⟩
    refine (g1 _).2 ⟨?_, fun j _ _ => by omega⟩
    show A _ = true
    rw [hA', if_neg (by omega), hlv, if_pos (by omega), k1]
  have eB := release_blk m2
  have m1' : (marked (marked h' l2) fun x => if x = h.req + 2 then false else
      (marked h' l2).live x).live (h.req + 1) = true := by
    show (if h.req + 1 = h.req + 2 then false else (marked h' l2).live (h.req + 1)) = true
    rw [if_neg (by omega), m1]
  obtain ⟨h9, eC, h9l⟩ : ∃ h9, release (Ptr.blk (h.req + 1)) (marked (marked h' l2) fun x =>
      if x = h.req + 2 then false else (marked h' l2).live x) = some ((), h9) ∧
      ∀ x, h9.live x = if x = h.req + 1 then false else if x = h.req + 2 then false else l2 x :=
    ⟨_, release_blk m1', fun x => rfl⟩
  refine ⟨h9, ?_, ?_⟩
  · simp only [free_temp_lg]
    rw [andThen_some (show isNull (Ptr.blk h.req) h' = some (false, h') from rfl)]
    simp only [Bool.false_eq_true, if_false]
    rw [andThen_some eA,
      andThen_some (show isNull (Ptr.blk (h.req + 1)) (marked h' A) = some (false, marked h' A) from rfl)]
    simp only [Bool.false_eq_true, if_false]
    rw [andThen_some f1,
      andThen_some (show isNull (Ptr.blk (h.req + 2)) (marked (marked h' A) l1)
        = some (false, marked h' l1) from rfl)]
    simp only [Bool.false_eq_true, if_false]
    rw [andThen_some f2]
    exact (andThen_some (x := release (Ptr.blk (h.req + 2))) eB).trans eC
  · intro x
    rw [h9l]
    by_cases hx : h.req ≤ x
    · rw [hf x hx]
      by_cases h1 : x = h.req + 1
      · rw [if_pos h1]
      · by_cases h2 : x = h.req + 2
        · rw [if_neg h1, if_pos h2]
        · rw [if_neg h1, if_neg h2]
          by_contra hc
          have hc : l2 x = true := by simpa using hc
          obtain ⟨a1, a2⟩ := (g2 x).1 hc
          obtain ⟨b1, b2⟩ := (g1 x).1 a1
          change A x = true at b1
          rw [hA'] at b1
          by_cases h0 : x = h.req
          · rw [if_pos h0] at b1; cases b1
          · rw [if_neg h0, hlv] at b1
            by_cases h3 : h.req ≤ x ∧ x < h.req + 3 + 2 * H
            · rw [if_pos h3] at b1
              rcases Nat.even_or_odd' (x - (h.req + 3)) with ⟨j, hj | hj⟩
              · refine b2 j (by omega) ?_ (by omega)
                show h'.cell _ _ = _
                rw [hD.cell_s j (by omega), show h.req + 1 + 2 + 2 * j = h.req + 3 + 2 * j by omega]
              · have hx4 : x = h.req + 4 + 2 * j := by omega
                refine a2 j (by omega) ?_ hx4
                show h'.cell _ _ = _
                rw [hc2 j (by omega), if_pos (by rw [← hx4]; exact b1)]
            · rw [if_neg h3, hf x hx] at b1; cases b1
    · rw [if_neg (by omega), if_neg (by omega)]
      have h3 : A x = h.live x := by rw [hA', if_neg (by omega), hlv, if_neg (by omega)]
      have h4 : l1 x = h.live x := by
        rw [← h3]
        apply Bool.eq_iff_iff.2
        rw [g1]
        exact ⟨fun q => q.1, fun q => ⟨q, fun j _ _ => by omega⟩⟩
      rw [← h4]
      apply Bool.eq_iff_iff.2
      rw [g2]
      exact ⟨fun q => q.1, fun q => ⟨q, fun j _ _ => by omega⟩⟩

/-- With all requests granted the search runs and all memory is given back. -/
theorem C119_FACG_partial {E : Env} {H : ℕ} {h : Heap} (hf : Fresh h) (iters : ℕ) (hG : Granted E h.req (3 + 2 * H)) :
    ∃ h', FACG E H iters h = some (iters, h') ∧ SameBlocks h h' := by
  have hk : ∀ i < H, E.ok (h.req + 3 + 2 * i) = true := fun i hi => by
    have := hG (3 + 2 * i) (by omega)
    rwa [show h.req + (3 + 2 * i) = h.req + 3 + 2 * i by omega] at this
  have ho : ∀ i < H, E.ok (h.req + 4 + 2 * i) = true := fun i hi => by
    have := hG (4 + 2 * i) (by omega)
    rwa [show h.req + (4 + 2 * i) = h.req + 4 + 2 * i by omega] at this
  have hG3 : Granted E h.req 3 := fun k hk => hG k (by omega)
  obtain ⟨f, h', e, hD⟩ := allocate_dirs hG3 hk
  obtain ⟨h'', e2, hs⟩ := free_lg_ok hf hG3 hk (Or.inr ho) hD
  have hff : f = false := by
    by_contra hc
    obtain ⟨j, hj, hj2⟩ := hD.flag_iff.1 (by simpa using hc)
    rw [show h.req + 1 + 3 + 2 * j = h.req + 4 + 2 * j by omega, ho j hj] at hj2
    cases hj2
  subst hff
  exact ⟨h'', by rw [FACG, andThen_some e, andThen_some e2]; rfl, hs⟩

/-- If the array of sums or the first table is refused, or (in the build without the aligned allocator) only
directions of the second kind are, the memory is given back and the routine returns the number of iterations of a
field that already is in the gauge, 0: the failure cannot be told from success. -/
theorem C119_FACG_silent_fails {E : Env} {H : ℕ} {h : Heap} (hf : Fresh h) (iters : ℕ)
    (hk : E.ok h.req = false ∨ (E.ok h.req = true ∧ E.ok (h.req + 1) = false) ∨
      (E.aligned = false ∧ Granted E h.req 3 ∧ (∀ i < H, E.ok (h.req + 3 + 2 * i) = true) ∧
        ∃ i < H, E.ok (h.req + 4 + 2 * i) = false)) :
    ∃ h', FACG E H iters h = some (0, h') ∧ SameBlocks h h' := by
  rcases hk with hk | ⟨k0, k1⟩ | ⟨ha, hG, hk, i, hi, hi2⟩
  · have e0 := malloc_apply E 0 h
    rw [if_neg (by simp [hk])] at e0
    refine ⟨grown E h 0, ?_, fun x => ?_⟩
    · rw [FACG, allocate_temp_lg]
      rw [andThen_some ((andThen_some e0).trans (by rw [if_pos rfl]; rfl))]
      rfl
    · show (if x = h.req then E.ok h.req else h.live x) = h.live x
      by_cases h1 : x = h.req
      · rw [if_pos h1, hk, h1, hf _ le_rfl]
      · rw [if_neg h1]
  · have e0 := malloc_apply E 0 h
    rw [if_pos k0] at e0
    have e1 := GLU_malloc_apply E Ptr.null H (grown E h 0)
    have hv : val E Ptr.null (h.req + 1) = Ptr.null := by
      rw [val, k1]
      by_cases ha : E.aligned = true <;> simp [ha]
    rw [show (grown E h 0).req = h.req + 1 from rfl, hv, k1] at e1
    have l0 : (grown E (grown E h 0) H).live h.req = true := by
      show (if h.req = h.req + 1 then _ else if h.req = h.req then E.ok h.req else _) = true
      rw [if_neg (by omega), if_pos rfl, k0]
    have e2 := release_blk l0
    have ea : allocate_temp_lg E H h
        = some ((false, ⟨Ptr.null, Ptr.null, Ptr.blk h.req⟩), grown E (grown E h 0) H) := by
      rw [allocate_temp_lg, andThen_some e0, if_neg (by simp), andThen_some e1]
      rfl
    refine ⟨?_, ?_, ?_⟩
    rotate_left
    · rw [FACG, andThen_some ea]
      simp only [free_temp_lg]
      rw [andThen_some (?_ : andThen _ _ _ = some ((), ?_))]
      · rfl
      rotate_left
      · rw [andThen_some (show isNull (Ptr.blk h.req) (grown E (grown E h 0) H)
          = some (false, grown E (grown E h 0) H) from rfl)]
        simp only [Bool.false_eq_true, if_false]
        rw [andThen_some e2]
        rfl
    · intro x
      show (if x = h.req then false else if x = h.req + 1 then E.ok (h.req + 1) else
        if x = h.req then E.ok h.req else h.live x) = h.live x
      by_cases h1 : x = h.req
      · rw [if_pos h1, h1, hf _ le_rfl]
      · rw [if_neg h1, if_neg h1]
        by_cases h2 : x = h.req + 1
        · rw [if_pos h2, k1, h2, hf _ (by omega)]
        · rw [if_neg h2]
  · obtain ⟨f, h', e, hD⟩ := allocate_dirs hG hk
    obtain ⟨h'', e2, hs⟩ := free_lg_ok hf hG hk (Or.inl ha) hD
    have hff : f = true := hD.flag_iff.2 ⟨i, hi, by
      rwa [show h.req + 1 + 3 + 2 * i = h.req + 4 + 2 * i by omega]⟩
    subst hff
    exact ⟨h'', by rw [FACG, andThen_some e, andThen_some e2]; rfl, hs⟩

/-- If the second table is refused, the entries of the first, which were never set, are released. -/
theorem C119_FACG_table_fails {E : Env} {H : ℕ} {h : Heap} (iters : ℕ) (hH : 0 < H) (k0 : E.ok h.req = true)
    (k1 : E.ok (h.req + 1) = true) (k2 : E.ok (h.req + 2) = false) : FACG E H iters h = none := by
  have e0 := malloc_apply E 0 h
  rw [if_pos k0] at e0
  have e1 := GLU_malloc_apply E Ptr.null H (grown E h 0)
  rw [show (grown E h 0).req = h.req + 1 from rfl, val, if_pos k1, k1] at e1
  have e2 := GLU_malloc_apply E Ptr.null H (grown E (grown E h 0) H)
  rw [show (grown E (grown E h 0) H).req = h.req + 2 from rfl, k2] at e2
  have ea : ∃ p, allocate_temp_lg E H h
      = some ((false, ⟨Ptr.blk (h.req + 1), p, Ptr.blk h.req⟩), grown E (grown E (grown E h 0) H) H) := by
    refine ⟨val E Ptr.null (h.req + 2), ?_⟩
    rw [allocate_temp_lg, andThen_some e0, if_neg (by simp), andThen_some e1]
    simp only [Bool.not_true, Bool.false_eq_true, if_false]
    rw [andThen_some e2]
    rfl
  obtain ⟨p, ea⟩ := ea
  rw [FACG, andThen_some ea]
  apply andThen_none
  simp only [free_temp_lg]
  have l0 : (grown E (grown E (grown E h 0) H) H).live h.req = true := by
    show (if h.req = h.req + 2 then _ else if h.req = h.req + 1 then _ else
      if h.req = h.req then E.ok h.req else _) = true
    rw [if_neg (by omega), if_neg (by omega), if_pos rfl, k0]
  rw [andThen_some (show isNull (Ptr.blk h.req) (grown E (grown E (grown E h 0) H) H)
    = some (false, grown E (grown E (grown E h 0) H) H) from rfl)]
  simp only [Bool.false_eq_true, if_false]
  rw [andThen_some (release_blk l0)]
  generalize hhm : marked (grown E (grown E (grown E h 0) H) H) (fun x => if x = h.req then false else
    (grown E (grown E (grown E h 0) H) H).live x) = hm
  rw [andThen_some (show isNull (Ptr.blk (h.req + 1)) hm = some (false, hm) from rfl)]
  simp only [Bool.false_eq_true, if_false]
  apply andThen_none
  refine loop_none (i := 0) hH rfl ?_
  have lm : hm.live (h.req + 1) = true := by
    subst hhm
    show (if h.req + 1 = h.req then false else if h.req + 1 = h.req + 2 then _ else
      if h.req + 1 = h.req + 1 then E.ok (h.req + 1) else _) = true
    rw [if_neg (by omega), if_neg (by omega), if_pos rfl, k1]
  have sm : hm.size (h.req + 1) = H := by
    subst hhm
    show (if h.req + 1 = h.req + 2 then _ else if h.req + 1 = h.req + 1 then H else _) = H
    rw [if_neg (by omega), if_pos rfl]
  have cm : hm.cell (h.req + 1) 0 = Ptr.garbage := by
    subst hhm
    show (if h.req + 1 = h.req + 2 then _ else if h.req + 1 = h.req + 1 then Ptr.garbage else _) = _
    rw [if_neg (by omega), if_pos rfl]
  rw [andThen_some (load_blk lm (by omega)), cm]
  rfl

/-- What holds of every finished run of a loop. -/
theorem loop_pc {σ : Type*} (I : ℕ → σ → Heap → Prop) (n : ℕ) (body : ℕ → σ → Prog σ) (s : σ) (h : Heap)
    (h0 : I 0 s h)
    (hs : ∀ i < n, ∀ s h, I i s h → ∀ s' h', body i s h = some (s', h') → I (i + 1) s' h') :
    ∀ s' h', loop n body s h = some (s', h') → I n s' h' := by
  induction n with
  | zero =>
    intro s' h' e
    simp only [loop, ret, Option.some.injEq, Prod.mk.injEq] at e
    obtain ⟨rfl, rfl⟩ := e
    exact h0
  | succ n ih =>
    intro s' h' e
    rw [loop, andThen] at e
    cases e1 : loop n body s h with
    | none => rw [e1] at e; cases e
    | some p =>
      rw [e1] at e
      exact hs n (by omega) p.1 p.2 (ih (fun i hi => hs i (by omega)) p.1 p.2 e1) s' h' e

/-- A piece of program that stores no pointer. -/
def Keeps {α : Type*} (x : Prog α) : Prop := ∀ h a h', x h = some (a, h') → h'.cell = h.cell

theorem keeps_ret {α : Type*} (a : α) : Keeps (ret a) := by
  intro h b h' e
  simp only [ret, Option.some.injEq, Prod.mk.injEq] at e
  rw [e.2]

theorem keeps_load (p : Ptr) (i : ℕ) : Keeps (load p i) := by
  intro h a h' e
  cases p with
  | garbage => cases e
  | null => cases e
  | blk b =>
    simp only [load] at e
    split_ifs at e with hc
    simp only [Option.some.injEq, Prod.mk.injEq] at e
    rw [e.2]

theorem keeps_isNull (p : Ptr) : Keeps (isNull p) := by
  intro h a h' e
  cases p with
  | garbage => cases e
  | null => simp only [isNull, Option.some.injEq, Prod.mk.injEq] at e; rw [e.2]
  | blk b => simp only [isNull, Option.some.injEq, Prod.mk.injEq] at e; rw [e.2]

theorem keeps_release (p : Ptr) : Keeps (release p) := by
  intro h a h' e
  cases p with
  | garbage => cases e
  | null => simp only [release, Option.some.injEq, Prod.mk.injEq] at e; rw [e.2]
  | blk b =>
    simp only [release] at e
    split_ifs at e with hc
    simp only [Option.some.injEq, Prod.mk.injEq] at e
    rw [← e.2]

theorem keeps_andThen {α β : Type*} {x : Prog α} {f : α → Prog β} (hx : Keeps x) (hf : ∀ a, Keeps (f a)) :
    Keeps (andThen x f) := by
  intro h b h' e
  rw [andThen] at e
  cases e1 : x h with
  | none => rw [e1] at e; cases e
  | some p =>
    rw [e1] at e
    exact (hf _ _ _ _ e).trans (hx _ _ _ e1)

theorem keeps_loop {σ : Type*} (n : ℕ) {body : ℕ → σ → Prog σ} (hb : ∀ i s, Keeps (body i s)) (s : σ) :
    Keeps (loop n body s) := by
  intro h a h' e
  exact loop_pc (fun _ _ h' => h'.cell = h.cell) n body s h rfl
    (fun i _ s1 h1 hI s2 h2 e2 => (hb i s1 h1 s2 h2 e2).trans hI) a h' e

theorem andThen_keep {α β : Type*} {x : Prog α} {f : α → Prog β} {h : Heap} (hx : Keeps x)
    (hf : ∀ a h', h'.cell = h.cell → f a h' = none) : andThen x f h = none := by
  rw [andThen]
  cases e1 : x h with
  | none => rfl
  | some p => exact hf p.1 p.2 (hx _ _ _ e1)

/-- A direction that was never set is released. -/
theorem free_garbage {h : Heap} {sn red : Ptr} {b i H : ℕ} (hi : i < H) (hc : h.cell b i = Ptr.garbage) :
    free_temp_lg ⟨sn, Ptr.blk b, red⟩ H h = none := by
  have kl : ∀ p : Ptr, Keeps (loop H (fun i (_ : Unit) => andThen (load p i) release) ()) := fun p =>
    keeps_loop H (fun i _ => keeps_andThen (keeps_load p i) fun q => keeps_release q) ()
  rw [free_temp_lg]
  refine andThen_keep (keeps_isNull _) fun z h1 c1 => ?_
  refine andThen_keep (by cases z <;> [exact keeps_release _; exact keeps_ret _]) fun _ h2 c2 => ?_
  refine andThen_keep (keeps_isNull _) fun z h3 c3 => ?_
  refine andThen_keep (by cases z <;> [exact kl _; exact keeps_ret _]) fun _ h4 c4 => ?_
  rw [andThen_some (show isNull (Ptr.blk b) h4 = some (false, h4) from rfl)]
  simp only [Bool.false_eq_true, if_false]
  apply andThen_none
  have hc4 : h4.cell b i = Ptr.garbage := by rw [c4, c3, c2, c1, hc]
  have hn : ∀ n, i < n → loop n (fun i (_ : Unit) => andThen (load (Ptr.blk b) i) release) () h4 = none := by
    intro n hn
    induction n with
    | zero => omega
    | succ n ih =>
      by_cases hin : i = n
      · subst hin
        rw [loop]
        refine andThen_keep
          (keeps_loop i (fun i _ => keeps_andThen (keeps_load _ i) fun q => keeps_release q) ()) fun _ h5 c5 => ?_
        rw [andThen]
        cases e : load (Ptr.blk b) i h5 with
        | none => rfl
        | some p =>
          simp only [load] at e
          split_ifs at e with hl
          simp only [Option.some.injEq] at e
          rw [← e, c5, hc4]
          rfl
      · rw [loop, andThen_none (ih (by omega))]
  exact hn H hi

/-- A turn for another direction leaves an entry of the second table alone. -/
theorem cgBody_other {E : Env} {s b i i0 : ℕ} {flag f : Bool} {h h' : Heap} (hsb : s ≠ b) (hi : i ≠ i0)
    (hr : b < h.req) (hc : h.cell b i0 = Ptr.garbage)
    (e : cgBody E (Ptr.blk s) (Ptr.blk b) i flag h = some (f, h')) :
    h'.cell b i0 = Ptr.garbage ∧ b < h'.req := by
  rw [cgBody, andThen] at e
  cases e1 : load (Ptr.blk s) i h with
  | none => rw [e1] at e; cases e
  | some p =>
    obtain ⟨q, h1⟩ := p
    rw [e1] at e
    simp only [load] at e1
    split_ifs at e1 with hl
    simp only [Option.some.injEq, Prod.mk.injEq] at e1
    obtain ⟨rfl, rfl⟩ := e1
    simp only at e
    rw [andThen_some (GLU_malloc_apply E _ 0 h)] at e
    simp only at e
    have hs := store_blk (h := grown E h 0) (b := s) (i := i) (val E (h.cell s i) h.req)
    by_cases hl2 : (grown E h 0).live s = true ∧ i < (grown E h 0).size s
    · rw [andThen_some (hs hl2.1 hl2.2)] at e
      generalize hh2 : put (grown E h 0) s i (val E (h.cell s i) h.req) = h2 at e
      have c2 : h2.cell b i0 = Ptr.garbage := by
        subst hh2
        show (if b = s ∧ i0 = i then _ else if b = h.req then _ else h.cell b i0) = _
        rw [if_neg (by tauto), if_neg (by omega), hc]
      have r2 : b < h2.req := by subst hh2; show b < h.req + 1; omega
      by_cases hk : (!E.ok h.req) = true
      · rw [if_pos hk] at e
        simp only [ret, Option.some.injEq, Prod.mk.injEq] at e
        obtain ⟨-, rfl⟩ := e
        exact ⟨c2, r2⟩
      · rw [if_neg hk, andThen] at e
        cases e3 : load (Ptr.blk b) i h2 with
        | none => rw [e3] at e; cases e
        | some p =>
          obtain ⟨q, h3⟩ := p
          rw [e3] at e
          simp only [load] at e3
          split_ifs at e3 with hl3
          simp only [Option.some.injEq, Prod.mk.injEq] at e3
          obtain ⟨rfl, rfl⟩ := e3
          simp only at e
          rw [andThen_some (GLU_malloc_apply E _ 0 h2)] at e
          simp only at e
          by_cases hl4 : (grown E h2 0).live b = true ∧ i < (grown E h2 0).size b
          · rw [andThen_some (store_blk _ hl4.1 hl4.2)] at e
            simp only [ret, Option.some.injEq, Prod.mk.injEq] at e
            obtain ⟨-, rfl⟩ := e
            refine ⟨?_, ?_⟩
            · show (if b = b ∧ i0 = i then _ else if b = h2.req then _ else h2.cell b i0) = _
              rw [if_neg (by omega), if_neg (by omega), c2]
            · show b < h2.req + 1
              omega
          · rw [andThen_none (by simp only [store]; rw [if_neg hl4])] at e
            cases e
    · rw [andThen_none (by simp only [store]; rw [if_neg hl2])] at e
      cases e

/-- A turn in which the first request is refused, or the second by the aligned allocator, leaves the entry of the
second table unset. -/
theorem cgBody_refused {E : Env} {h : Heap} {s H i : ℕ} {flag : Bool} {h' : Heap} (hi : i < H)
    (hs : E.ok s = true) (ho : E.ok (s + 1) = true) (hD : Dirs E h s H i flag h')
    (hk : E.ok (s + 2 + 2 * i) = false ∨ (E.aligned = true ∧ E.ok (s + 2 + 2 * i) = true ∧
      E.ok (s + 3 + 2 * i) = false)) :
    ∃ f h'', cgBody E (Ptr.blk s) (Ptr.blk (s + 1)) i flag h' = some (f, h'') ∧
      h''.cell (s + 1) i = Ptr.garbage ∧ s + 1 < h''.req := by
  rcases hk with hk | ⟨ha, hk, hk2⟩
  · have ls : h'.live s = true := by rw [hD.live, if_pos (by omega), hs]
    have e1 := load_blk (h := h') ls (by rw [hD.size_s]; exact hi)
    have e2 := GLU_malloc_apply E (h'.cell s i) 0 h'
    have e3 := store_blk (h := grown E h' 0) (b := s) (i := i) (val E (h'.cell s i) h'.req)
      (by show (if s = h'.req then _ else h'.live s) = true; rw [if_neg (by rw [hD.req]; omega), ls])
      (by show i < (if s = h'.req then _ else h'.size s)
          rw [if_neg (by rw [hD.req]; omega), hD.size_s]; exact hi)
    refine ⟨true, put (grown E h' 0) s i (val E (h'.cell s i) h'.req), ?_, ?_, ?_⟩
    · rw [cgBody, andThen_some e1, andThen_some e2]
      simp only
      rw [andThen_some e3]
      simp only [hD.req, hk, Bool.not_false, if_true]
      rfl
    · show (if s + 1 = s ∧ i = i then _ else if s + 1 = h'.req then _ else h'.cell (s + 1) i) = _
      rw [if_neg (by omega), if_neg (by rw [hD.req]; omega), hD.rest_o i le_rfl]
    · show s + 1 < h'.req + 1
      rw [hD.req]; omega
  · obtain ⟨f, h'', e, hD'⟩ := cgBody_run hi hs ho hD hk
    refine ⟨f, h'', e, ?_, by rw [hD'.req]; omega⟩
    rw [hD'.cell_o i (by omega), val, hk2, ha]
    simp

/-- If the first request of a direction is refused, or in the build with the aligned allocator the second, a
pointer that was never set is released. -/
theorem C119_FACG_direction_fails {E : Env} {H i : ℕ} {h : Heap} (iters : ℕ) (hi : i < H)
    (hG : Granted E h.req 3) (hprev : ∀ j < i, E.ok (h.req + 3 + 2 * j) = true)
    (hk : E.ok (h.req + 3 + 2 * i) = false ∨ (E.aligned = true ∧ E.ok (h.req + 3 + 2 * i) = true ∧
      E.ok (h.req + 4 + 2 * i) = false)) : FACG E H iters h = none := by
  have k0 : E.ok h.req = true := hG 0 (by omega)
  have k1 : E.ok (h.req + 1) = true := hG 1 (by omega)
  have k2 : E.ok (h.req + 2) = true := hG 2 (by omega)
  obtain ⟨f, h', e, hD⟩ := loop_inv (Dirs E (grown E h 0) (h.req + 1) H) i
    (cgBody E (Ptr.blk (h.req + 1)) (Ptr.blk (h.req + 2))) false _
    (dirs_zero (E := E) (h := grown E h 0) (H := H) k1 k2) (fun j hj s h' hD =>
      cgBody_run (by omega) k1 k2 hD (by
        have := hprev j hj
        rwa [show h.req + 1 + 2 + 2 * j = h.req + 3 + 2 * j by omega]))
  obtain ⟨f2, h2, e2, c2, r2⟩ := cgBody_refused hi k1 k2 hD (by
    rwa [show h.req + 1 + 2 + 2 * i = h.req + 3 + 2 * i by omega,
      show h.req + 1 + 3 + 2 * i = h.req + 4 + 2 * i by omega])
  -- the remaining turns
  have hrest : ∀ n, i < n → ∀ f h', loop n (cgBody E (Ptr.blk (h.req + 1)) (Ptr.blk (h.req + 2))) false
      (grown E (grown E (grown E h 0) H) H) = some (f, h') →
      h'.cell (h.req + 2) i = Ptr.garbage ∧ h.req + 2 < h'.req := by
    intro n
    induction n with
    | zero => intro hn; omega
    | succ n ih =>
      intro hn f' h4 e4
      by_cases hin : i = n
      · subst hin
        rw [loop, andThen_some e, e2] at e4
        simp only [Option.some.injEq, Prod.mk.injEq] at e4
        obtain ⟨-, rfl⟩ := e4
        exact ⟨c2, r2⟩
      · rw [loop, andThen] at e4
        cases e5 : loop n (cgBody E (Ptr.blk (h.req + 1)) (Ptr.blk (h.req + 2))) false
            (grown E (grown E (grown E h 0) H) H) with
        | none => rw [e5] at e4; cases e4
        | some p =>
          rw [e5] at e4
          obtain ⟨c6, r6⟩ := ih (by omega) p.1 p.2 e5
          exact cgBody_other (by omega) (Ne.symm hin) r6 c6 e4
  have e0 := malloc_apply E 0 h
  rw [if_pos k0] at e0
  have e1 := GLU_malloc_apply E Ptr.null H (grown E h 0)
  rw [show (grown E h 0).req = h.req + 1 from rfl, val, if_pos k1, k1] at e1
  have e3 := GLU_malloc_apply E Ptr.null H (grown E (grown E h 0) H)
  rw [show (grown E (grown E h 0) H).req = h.req + 2 from rfl, val, if_pos k2, k2] at e3
  have ea : allocate_temp_lg E H h = andThen (loop H (cgBody E (Ptr.blk (h.req + 1)) (Ptr.blk (h.req + 2))) false)
      (fun flag => ret (!flag, ⟨Ptr.blk (h.req + 1), Ptr.blk (h.req + 2), Ptr.blk h.req⟩))
      (grown E (grown E (grown E h 0) H) H) := by
    rw [allocate_temp_lg, andThen_some e0, if_neg (by simp), andThen_some e1]
    simp only [Bool.not_true, Bool.false_eq_true, if_false]
    rw [andThen_some e3]
    simp only [Bool.not_true, Bool.false_eq_true, if_false]
  cases e5 : loop H (cgBody E (Ptr.blk (h.req + 1)) (Ptr.blk (h.req + 2))) false
      (grown E (grown E (grown E h 0) H) H) with
  | none =>
    rw [FACG]
    apply andThen_none
    rw [ea, andThen_none e5]
  | some p =>
    obtain ⟨f6, h6⟩ := p
    obtain ⟨c6, -⟩ := hrest H hi f6 h6 e5
    have ea' : allocate_temp_lg E H h
        = some ((!f6, ⟨Ptr.blk (h.req + 1), Ptr.blk (h.req + 2), Ptr.blk h.req⟩), h6) := by
      rw [ea, andThen_some e5]; rfl
    rw [FACG, andThen_some ea']
    exact andThen_none (free_garbage hi c6)

/-! ## The hypotheses are met -/

/-- An empty memory. -/
def empty : Heap := ⟨0, fun _ => false, fun _ => 0, fun _ _ => Ptr.garbage⟩

example : Fresh empty := fun _ _ => rfl

/-- A machine that grants the first 40 requests: enough for one field of 2 sites with 4 matrices (11 requests)
and for the three fields of a smearing of 2 sites (33 requests), not for 3. -/
example : Granted ⟨fun k => decide (k < 40), true⟩ empty.req (requests 2 4 + 2 * requests (1 * 2) 4) := by
  intro k hk
  simp only [requests] at hk
  show decide (0 + k < 40) = true
  exact decide_eq_true (by omega)

example : ¬ Granted ⟨fun k => decide (k < 40), true⟩ empty.req (requests 3 4 + 2 * requests (1 * 3) 4) := by
  intro h
  have := h 40 (by simp [requests])
  simp [empty] at this

/-- The smearing of the first and of the second kind. -/
example : (smear4D ⟨fun k => decide (k < 40), true⟩ 2 4 1 true empty).isSome = true ∧
    smear4D ⟨fun k => decide (k < 40), true⟩ 3 4 1 true empty = none := by
  constructor
  · obtain ⟨h', e, -⟩ := C119_smear4D_partial (E := ⟨fun k => decide (k < 40), true⟩) (lcu := 2) (ND := 4) (w := 1)
      (h := empty) (fun _ _ => rfl) (by omega) (by
        intro k hk
        simp only [requests] at hk
        show decide (0 + k < 40) = true
        exact decide_eq_true (by omega))
    rw [e]; rfl
  · refine C119_smear4D_refused_fails (by omega) (by omega) (by omega) fun h => ?_
    have := h 40 (by simp [requests])
    simp [empty] at this

/-- A machine that refuses one direction of the second kind, with either allocator. -/
example : (∃ h', FACG ⟨fun k => decide (k ≠ 6), false⟩ 8 77 empty = some (0, h')) ∧
    FACG ⟨fun k => decide (k ≠ 6), true⟩ 8 77 empty = none := by
  constructor
  · obtain ⟨h', e, -⟩ := C119_FACG_silent_fails (E := ⟨fun k => decide (k ≠ 6), false⟩) (H := 8) (h := empty)
      (fun _ _ => rfl) 77 (Or.inr (Or.inr ⟨rfl, fun k hk => by simp [empty]; omega,
        fun i hi => by simp [empty]; omega, 1, by omega, by simp [empty]⟩))
    exact ⟨h', e⟩
  · refine C119_FACG_direction_fails (i := 1) 77 (by omega) (fun k hk => by simp [empty]; omega)
      (fun j hj => by simp [empty]; omega) (Or.inr ⟨rfl, by simp [empty], by simp [empty]⟩)

end GLU.Alloc
