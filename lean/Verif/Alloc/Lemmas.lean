import Verif.Alloc.Model
import Mathlib.Tactic.Ring
import Mathlib.Tactic.Linarith

/-!
# Lemmas about the memory model
-/

namespace GLU.Alloc

variable {α β σ : Type*}

theorem andThen_some {x : Prog α} {f : α → Prog β} {h h' : Heap} {a : α} (hx : x h = some (a, h')) :
    andThen x f h = f a h' := by
  simp [andThen, hx]

theorem andThen_none {x : Prog α} {f : α → Prog β} {h : Heap} (hx : x h = none) :
    andThen x f h = none := by
  simp [andThen, hx]

theorem andThen_all {x : Prog α} {f : α → Prog β} {h : Heap} (hf : ∀ a h', f a h' = none) :
    andThen x f h = none := by
  rw [andThen]
  cases x h with
  | none => rfl
  | some p => exact hf p.1 p.2

theorem loop_inv (I : ℕ → σ → Heap → Prop) (n : ℕ) (body : ℕ → σ → Prog σ) (s : σ) (h : Heap) (h0 : I 0 s h)
    (hs : ∀ i < n, ∀ s h, I i s h → ∃ s' h', body i s h = some (s', h') ∧ I (i + 1) s' h') :
    ∃ s' h', loop n body s h = some (s', h') ∧ I n s' h' := by
  induction n with
  | zero => exact ⟨s, h, rfl, h0⟩
  | succ n ih =>
    obtain ⟨s1, h1, e1, i1⟩ := ih fun i hi => hs i (by omega)
    obtain ⟨s2, h2, e2, i2⟩ := hs n (by omega) s1 h1 i1
    exact ⟨s2, h2, by rw [loop, andThen_some e1, e2], i2⟩

theorem loop_none {n i : ℕ} {body : ℕ → σ → Prog σ} {s s' : σ} {h h' : Heap} (hi : i < n)
    (e : loop i body s h = some (s', h')) (en : body i s' h' = none) : loop n body s h = none := by
  induction n with
  | zero => omega
  | succ n ih =>
    by_cases hin : i = n
    · subst hin
      rw [loop, andThen_some e, en]
    · rw [loop, andThen_none (ih (by omega))]

/-- The memory after one more request for `n` pointers. -/
def grown (E : Env) (h : Heap) (n : ℕ) : Heap :=
  { req := h.req + 1
    live := fun x => if x = h.req then E.ok h.req else h.live x
    size := fun x => if x = h.req then n else h.size x
    cell := fun x j => if x = h.req then Ptr.garbage else h.cell x j }

/-- The value of a pointer passed to the allocator: `old` is its value before, `k` the number of the request. -/
def val (E : Env) (old : Ptr) (k : ℕ) : Ptr :=
  if E.ok k = true then Ptr.blk k else if E.aligned = true then old else Ptr.null

theorem malloc_apply (E : Env) (n : ℕ) (h : Heap) :
    malloc E n h = some (if E.ok h.req = true then Ptr.blk h.req else Ptr.null, grown E h n) := rfl

theorem GLU_malloc_apply (E : Env) (old : Ptr) (n : ℕ) (h : Heap) :
    GLU_malloc E old n h = some ((!E.ok h.req, val E old h.req), grown E h n) := by
  rw [GLU_malloc, andThen_some (malloc_apply E n h)]
  by_cases hk : E.ok h.req = true
  · simp [hk, ret, val]
  · simp [hk, ret, val]

theorem load_blk {h : Heap} {b i : ℕ} (hl : h.live b = true) (hi : i < h.size b) :
    load (Ptr.blk b) i h = some (h.cell b i, h) := by
  simp [load, hl, hi]

/-- The memory after storing `q` in cell `i` of block `b`. -/
def put (h : Heap) (b i : ℕ) (q : Ptr) : Heap :=
  { h with cell := fun x j => if x = b ∧ j = i then q else h.cell x j }

theorem store_blk {h : Heap} {b i : ℕ} (q : Ptr) (hl : h.live b = true) (hi : i < h.size b) :
    store (Ptr.blk b) i q h = some ((), put h b i q) := by
  simp [store, hl, hi, put]

/-- What the allocation of the matrices of a site does. -/
theorem matrices_run (E : Env) (b c i L2 : ℕ) (flag : Bool) (h : Heap) (hb : h.live b = true) (hi : i < h.size b)
    (hc : h.cell b i = Ptr.blk c) (hlc : h.live c = true) (hsc : h.size c = L2) (hbr : b < h.req)
    (hcr : c < h.req) (hbc : b ≠ c) (hg : ∀ m < L2, h.cell c m = Ptr.garbage) :
    ∃ f h', allocate_matrices E (Ptr.blk b) i L2 flag h = some (f, h') ∧
      h'.req = h.req + L2 ∧
      (∀ x, h'.live x = if h.req ≤ x ∧ x < h.req + L2 then E.ok x else h.live x) ∧
      (∀ x < h.req, h'.size x = h.size x) ∧
      (∀ x < h.req, ∀ j, h'.cell x j = if x = c ∧ j < L2 then val E Ptr.garbage (h.req + j) else h.cell x j) ∧
      (f = true ↔ flag = true ∨ ∃ k, h.req ≤ k ∧ k < h.req + L2 ∧ E.ok k = false) := by
  refine loop_inv (fun mu f h' =>
      h'.req = h.req + mu ∧
      (∀ x, h'.live x = if h.req ≤ x ∧ x < h.req + mu then E.ok x else h.live x) ∧
      (∀ x < h.req, h'.size x = h.size x) ∧
      (∀ x < h.req, ∀ j, h'.cell x j = if x = c ∧ j < mu then val E Ptr.garbage (h.req + j) else h.cell x j) ∧
      (f = true ↔ flag = true ∨ ∃ k, h.req ≤ k ∧ k < h.req + mu ∧ E.ok k = false)) L2 _ flag h ?_ ?_
  · refine ⟨rfl, fun x => ?_, fun x _ => rfl, fun x _ j => ?_, ?_⟩
    · rw [if_neg (by omega)]
    · rw [if_neg (by omega)]
    · constructor
      · exact Or.inl
      · rintro (hf | ⟨k, hk1, hk2, -⟩)
        · exact hf
        · omega
  · rintro mu hmu f h' ⟨hr, hlv, hsz, hce, hfl⟩
    have hlb : h'.live b = true := by rw [hlv, if_neg (by omega), hb]
    have hlc' : h'.live c = true := by rw [hlv, if_neg (by omega), hlc]
    have hsb : i < h'.size b := by rw [hsz b hbr]; exact hi
    have hsc' : h'.size c = L2 := by rw [hsz c hcr, hsc]
    have hcb : h'.cell b i = Ptr.blk c := by rw [hce b hbr, if_neg (by tauto), hc]
    have hcm : h'.cell c mu = Ptr.garbage := by rw [hce c hcr, if_neg (by omega), hg mu hmu]
    have e1 : load (Ptr.blk b) i h' = some (Ptr.blk c, h') := by rw [load_blk hlb hsb, hcb]
    have e2 : load (Ptr.blk c) mu h' = some (Ptr.garbage, h') := by rw [load_blk hlc' (by omega), hcm]
    have e3 := GLU_malloc_apply E Ptr.garbage 0 h'
    have hlg : (grown E h' 0).live c = true := by
      show (if c = h'.req then _ else h'.live c) = true
      rw [if_neg (by omega), hlc']
    have hsg : (grown E h' 0).size c = L2 := by
      show (if c = h'.req then _ else h'.size c) = L2
      rw [if_neg (by omega), hsc']
    have e4 := store_blk (h := grown E h' 0) (b := c) (i := mu) (val E Ptr.garbage h'.req) hlg (by omega)
    refine ⟨f || !E.ok h'.req, put (grown E h' 0) c mu (val E Ptr.garbage h'.req), ?_, ?_⟩
    · rw [andThen_some e1, andThen_some e2, andThen_some e3]
      simp only
      rw [andThen_some e4]
      rfl
    · refine ⟨?_, fun x => ?_, fun x hx => ?_, fun x hx j => ?_, ?_⟩
      · show h'.req + 1 = _
        omega
      · show (if x = h'.req then E.ok h'.req else h'.live x) = _
        by_cases hx : x = h'.req
        · rw [if_pos hx, if_pos (by omega), hx]
        · rw [if_neg hx, hlv]
          by_cases h2 : h.req ≤ x ∧ x < h.req + mu
          · rw [if_pos h2, if_pos (by omega)]
          · rw [if_neg h2, if_neg (by omega)]
      · show (if x = h'.req then _ else h'.size x) = _
        rw [if_neg (by omega), hsz x hx]
      · show (if x = c ∧ j = mu then _ else if x = h'.req then _ else h'.cell x j) = _
        by_cases h1 : x = c ∧ j = mu
        · rw [if_pos h1, if_pos (by omega), hr, h1.2]
        · rw [if_neg h1, if_neg (by omega), hce x hx]
          by_cases h2 : x = c ∧ j < mu
          · rw [if_pos h2, if_pos (by omega)]
          · rw [if_neg h2, if_neg (by omega)]
      · simp only [Bool.or_eq_true, hfl, Bool.not_eq_true']
        constructor
        · rintro ((hf | ⟨k, h1, h2, h3⟩) | h3)
          · exact Or.inl hf
          · exact Or.inr ⟨k, h1, by omega, h3⟩
          · exact Or.inr ⟨h'.req, by omega, by omega, h3⟩
        · rintro (hf | ⟨k, h1, h2, h3⟩)
          · exact Or.inl (Or.inl hf)
          · by_cases hk : k = h'.req
            · exact Or.inr (hk ▸ h3)
            · exact Or.inl (Or.inr ⟨k, h1, by omega, h3⟩)

/-- The request for the table of site `i`, when the first request has number `r`. -/
def row (r L2 i : ℕ) : ℕ := r + 1 + i * (L2 + 1)

theorem row_succ (r L2 i : ℕ) : row r L2 (i + 1) = row r L2 i + (L2 + 1) := by
  unfold row; ring

theorem row_mono {r L2 i j : ℕ} (h : i < j) : row r L2 i + (L2 + 1) ≤ row r L2 j := by
  rw [← row_succ]
  unfold row
  have := Nat.mul_le_mul_right (L2 + 1) (show i + 1 ≤ j by omega)
  omega

theorem row_gt (r L2 i : ℕ) : r < row r L2 i := by unfold row; omega

/-- The memory after the tables and matrices of the first `i` sites, the request for the field having had
number `r` in memory `h`. -/
structure Built (E : Env) (h : Heap) (L1 L2 i : ℕ) (flag : Bool) (h' : Heap) : Prop where
  req : h'.req = row h.req L2 i
  live : ∀ x, h'.live x = if h.req ≤ x ∧ x < row h.req L2 i then E.ok x else h.live x
  size : ∀ x < h.req, h'.size x = h.size x
  cell : ∀ x < h.req, ∀ j, h'.cell x j = h.cell x j
  top_size : h'.size h.req = L1
  top_cell : ∀ j < i, h'.cell h.req j = Ptr.blk (row h.req L2 j)
  top_rest : ∀ j, i ≤ j → h'.cell h.req j = Ptr.garbage
  row_size : ∀ j < i, h'.size (row h.req L2 j) = L2
  row_cell : ∀ j < i, ∀ m < L2, h'.cell (row h.req L2 j) m = val E Ptr.garbage (row h.req L2 j + 1 + m)
  flag_iff : flag = true ↔ ∃ k, h.req ≤ k ∧ k < row h.req L2 i ∧ E.ok k = false

/-- One turn of the loop over the sites. -/
abbrev siteBody (E : Env) (lat : Ptr) (L2 : ℕ) (i : ℕ) (flag : Bool) : Prog Bool :=
  andThen (load lat i) fun old =>
  andThen (GLU_malloc E old L2) fun q =>
  andThen (store lat i q.2) fun _ =>
  allocate_matrices E lat i L2 (flag || q.1)

theorem allocate_eq (E : Env) (L1 L2 : ℕ) (h : Heap) :
    allocate_s_site E L1 L2 h =
      if E.ok h.req = true then
        andThen (loop L1 (siteBody E (Ptr.blk h.req) L2) false)
          (fun flag => ret (if flag = true then Ptr.null else Ptr.blk h.req)) (grown E h L1)
      else some (Ptr.null, grown E h L1) := by
  rw [allocate_s_site, andThen_some (GLU_malloc_apply E Ptr.null L1 h)]
  by_cases hk : E.ok h.req = true
  · simp [hk, val]
  · simp [hk, ret]

theorem siteBody_run {E : Env} {h : Heap} {L1 L2 i : ℕ} {flag : Bool} {h' : Heap} (hi : i < L1)
    (ht : E.ok h.req = true) (hB : Built E h L1 L2 i flag h') (hk : E.ok (row h.req L2 i) = true) :
    ∃ f h'', siteBody E (Ptr.blk h.req) L2 i flag h' = some (f, h'') ∧ Built E h L1 L2 (i + 1) f h'' := by
  have hrg := row_gt h.req L2 i
  have hlt : h'.live h.req = true := by rw [hB.live, if_pos (by omega), ht]
  have e1 := load_blk (h := h') (b := h.req) (i := i) hlt (by rw [hB.top_size]; exact hi)
  have e2 := GLU_malloc_apply E (h'.cell h.req i) L2 h'
  have hv : val E (h'.cell h.req i) h'.req = Ptr.blk (row h.req L2 i) := by
    rw [hB.req, val, if_pos hk]
  rw [hv] at e2
  have hlg : (grown E h' L2).live h.req = true := by
    show (if h.req = h'.req then _ else h'.live h.req) = true
    rw [if_neg (by rw [hB.req]; omega), hlt]
  have hsg : (grown E h' L2).size h.req = L1 := by
    show (if h.req = h'.req then _ else h'.size h.req) = L1
    rw [if_neg (by rw [hB.req]; omega), hB.top_size]
  have e3 := store_blk (h := grown E h' L2) (b := h.req) (i := i) (Ptr.blk (row h.req L2 i)) hlg (by omega)
  generalize hh2 : put (grown E h' L2) h.req i (Ptr.blk (row h.req L2 i)) = h2 at e3
  have r2 : h2.req = row h.req L2 i + 1 := by subst hh2; show h'.req + 1 = _; rw [hB.req]
  have l2 : ∀ x, h2.live x = if x = row h.req L2 i then true else h'.live x := by
    intro x; subst hh2
    show (if x = h'.req then E.ok h'.req else h'.live x) = _
    rw [hB.req, hk]
  have s2 : ∀ x, h2.size x = if x = row h.req L2 i then L2 else h'.size x := by
    intro x; subst hh2
    show (if x = h'.req then L2 else h'.size x) = _
    rw [hB.req]
  have c2 : ∀ x j, h2.cell x j = if x = h.req ∧ j = i then Ptr.blk (row h.req L2 i) else
      if x = row h.req L2 i then Ptr.garbage else h'.cell x j := by
    intro x j; subst hh2
    show (if x = h.req ∧ j = i then _ else if x = h'.req then _ else h'.cell x j) = _
    rw [hB.req]
  obtain ⟨f, h3, e4, r3, l3, s3, c3, f3⟩ := matrices_run E h.req (row h.req L2 i) i L2 (flag || !E.ok h'.req) h2
    (by rw [l2, if_neg (by omega), hlt]) (by rw [s2, if_neg (by omega), hB.top_size]; exact hi)
    (by rw [c2, if_pos ⟨rfl, rfl⟩]) (by rw [l2, if_pos rfl]) (by rw [s2, if_pos rfl]) (by omega) (by omega)
    (by omega) (by intro m _; rw [c2, if_neg (by omega), if_pos rfl])
  refine ⟨f, h3, ?_, ?_⟩
  · rw [siteBody, andThen_some e1, andThen_some e2]
    simp only
    rw [andThen_some e3, e4]
  · have hs := row_succ h.req L2 i
    refine ⟨by omega, fun x => ?_, fun x hx => ?_, fun x hx j => ?_, ?_, fun j hj => ?_, fun j hj => ?_,
      fun j hj => ?_, fun j hj m hm => ?_, ?_⟩
    · rw [l3, r2]
      by_cases h1 : row h.req L2 i + 1 ≤ x ∧ x < row h.req L2 i + 1 + L2
      · rw [if_pos h1, if_pos (by omega)]
      · rw [if_neg h1, l2]
        by_cases h4 : x = row h.req L2 i
        · rw [if_pos h4, if_pos (by omega), h4, hk]
        · rw [if_neg h4, hB.live]
          by_cases h5 : h.req ≤ x ∧ x < row h.req L2 i
          · rw [if_pos h5, if_pos (by omega)]
          · rw [if_neg h5, if_neg (by omega)]
    · rw [s3 x (by omega), s2, if_neg (by omega), hB.size x hx]
    · rw [c3 x (by omega), if_neg (by omega), c2, if_neg (by omega), if_neg (by omega), hB.cell x hx]
    · rw [s3 _ (by omega), s2, if_neg (by omega), hB.top_size]
    · rw [c3 _ (by omega), if_neg (by omega), c2]
      by_cases hji : j = i
      · rw [if_pos ⟨rfl, hji⟩, hji]
      · rw [if_neg (by tauto), if_neg (by omega), hB.top_cell j (by omega)]
    · rw [c3 _ (by omega), if_neg (by omega), c2, if_neg (by omega), if_neg (by omega),
        hB.top_rest j (by omega)]
    · by_cases hji : j = i
      · subst hji
        rw [s3 _ (by omega), s2, if_pos rfl]
      · have := row_mono (r := h.req) (L2 := L2) (show j < i by omega)
        rw [s3 _ (by omega), s2, if_neg (by omega), hB.row_size j (by omega)]
    · have hg := row_gt h.req L2 j
      by_cases hji : j = i
      · subst hji
        rw [c3 _ (by omega), if_pos ⟨rfl, hm⟩, r2]
      · have := row_mono (r := h.req) (L2 := L2) (show j < i by omega)
        rw [c3 _ (by omega), if_neg (by omega), c2, if_neg (by omega), if_neg (by omega),
          hB.row_cell j (by omega) m hm]
    · rw [f3, hB.req, hk, r2]
      simp only [Bool.not_true, Bool.or_false, hB.flag_iff]
      constructor
      · rintro (⟨k, h1, h2, h3⟩ | ⟨k, h1, h2, h3⟩)
        · exact ⟨k, h1, by omega, h3⟩
        · exact ⟨k, by omega, by omega, h3⟩
      · rintro ⟨k, h1, h2, h3⟩
        by_cases h4 : k < row h.req L2 i
        · exact Or.inl ⟨k, h1, h4, h3⟩
        · by_cases h5 : k = row h.req L2 i
          · rw [h5, hk] at h3; cases h3
          · exact Or.inr ⟨k, by omega, by omega, h3⟩

theorem built_zero {E : Env} {h : Heap} {L1 L2 : ℕ} (ht : E.ok h.req = true) :
    Built E h L1 L2 0 false (grown E h L1) := by
  have hr : row h.req L2 0 = h.req + 1 := by simp [row]
  refine ⟨by rw [hr]; rfl, fun x => ?_, fun x hx => ?_, fun x hx j => ?_, ?_, by omega, fun j _ => ?_, by omega, by omega,
    ?_⟩
  · show (if x = h.req then E.ok h.req else h.live x) = _
    rw [hr]
    by_cases h1 : x = h.req
    · rw [if_pos h1, if_pos (by omega), h1]
    · rw [if_neg h1, if_neg (by omega)]
  · show (if x = h.req then _ else h.size x) = _
    rw [if_neg (by omega)]
  · show (if x = h.req then _ else h.cell x j) = _
    rw [if_neg (by omega)]
  · show (if h.req = h.req then L1 else _) = L1
    rw [if_pos rfl]
  · show (if h.req = h.req then Ptr.garbage else _) = _
    rw [if_pos rfl]
  · constructor
    · intro hf; cases hf
    · rintro ⟨k, h1, h2, h3⟩
      have : k = h.req := by omega
      rw [this, ht] at h3; cases h3

/-- The loop over the sites as long as every table of a site is granted. -/
theorem sites_run {E : Env} {h : Heap} {L1 L2 n : ℕ} (hn : n ≤ L1) (ht : E.ok h.req = true)
    (hk : ∀ i < n, E.ok (row h.req L2 i) = true) :
    ∃ f h', loop n (siteBody E (Ptr.blk h.req) L2) false (grown E h L1) = some (f, h') ∧
      Built E h L1 L2 n f h' :=
  loop_inv (Built E h L1 L2) n _ _ _ (built_zero ht) fun i hi s h' hB =>
    siteBody_run (by omega) ht hB (hk i hi)

/-- The table of a site is refused: its first matrix is looked for through an unset or null pointer. -/
theorem siteBody_none {E : Env} {h : Heap} {L1 L2 i : ℕ} {flag : Bool} {h' : Heap} (hi : i < L1) (h2 : 0 < L2)
    (ht : E.ok h.req = true) (hB : Built E h L1 L2 i flag h')
    (hk : E.ok (row h.req L2 i) = false) : siteBody E (Ptr.blk h.req) L2 i flag h' = none := by
  have hrg := row_gt h.req L2 i
  have hg := hB.top_rest i le_rfl
  have hlt : h'.live h.req = true := by rw [hB.live, if_pos (by omega), ht]
  have e1 := load_blk (h := h') (b := h.req) (i := i) hlt (by rw [hB.top_size]; exact hi)
  have e2 := GLU_malloc_apply E (h'.cell h.req i) L2 h'
  have hlg : (grown E h' L2).live h.req = true := by
    show (if h.req = h'.req then _ else h'.live h.req) = true
    rw [if_neg (by rw [hB.req]; omega), hlt]
  have hsg : (grown E h' L2).size h.req = L1 := by
    show (if h.req = h'.req then _ else h'.size h.req) = L1
    rw [if_neg (by rw [hB.req]; omega), hB.top_size]
  have e3 := store_blk (h := grown E h' L2) (b := h.req) (i := i) (val E (h'.cell h.req i) h'.req) hlg (by omega)
  rw [siteBody, andThen_some e1, andThen_some e2]
  simp only
  rw [andThen_some e3, allocate_matrices]
  refine loop_none (i := 0) h2 rfl ?_
  rw [andThen_some (load_blk (by exact hlg) (by show i < (grown E h' L2).size h.req; omega))]
  have hv : val E (h'.cell h.req i) h'.req = Ptr.garbage ∨ val E (h'.cell h.req i) h'.req = Ptr.null := by
    rw [hB.req, val, hk, hg]
    by_cases ha : E.aligned = true
    · left; simp [ha]
    · right; simp [ha]
  apply andThen_none
  show load (if h.req = h.req ∧ i = i then _ else _) 0 _ = none
  rw [if_pos ⟨rfl, rfl⟩]
  rcases hv with hv | hv <;> rw [hv] <;> rfl

theorem allocate_refused {E : Env} {h : Heap} (L1 L2 : ℕ) (ht : E.ok h.req = false) :
    allocate_s_site E L1 L2 h = some (Ptr.null, grown E h L1) := by
  rw [allocate_eq, ht]
  simp

theorem allocate_run {E : Env} {h : Heap} {L1 L2 : ℕ} (ht : E.ok h.req = true)
    (hk : ∀ i < L1, E.ok (row h.req L2 i) = true) :
    ∃ f h', allocate_s_site E L1 L2 h = some (if f = true then Ptr.null else Ptr.blk h.req, h') ∧
      Built E h L1 L2 L1 f h' := by
  obtain ⟨f, h', e, hB⟩ := sites_run (le_refl L1) ht hk
  refine ⟨f, h', ?_, hB⟩
  rw [allocate_eq, if_pos ht, andThen_some e]
  rfl

theorem allocate_undefined {E : Env} {h : Heap} {L1 L2 : ℕ} (h2 : 0 < L2) (ht : E.ok h.req = true)
    (hk : ∃ i < L1, E.ok (row h.req L2 i) = false) : allocate_s_site E L1 L2 h = none := by
  classical
  obtain ⟨hi, hf⟩ := Nat.find_spec hk
  have hmin : ∀ j < Nat.find hk, E.ok (row h.req L2 j) = true := by
    intro j hj
    have := Nat.find_min hk hj
    by_contra hc
    exact this ⟨by omega, by simpa using hc⟩
  obtain ⟨f, h', e, hB⟩ := sites_run (L1 := L1) (le_of_lt hi) ht hmin
  rw [allocate_eq, if_pos ht, andThen_none (loop_none hi e (siteBody_none hi h2 ht hB hf))]

/-- The memory with other marks of what is allocated. -/
def marked (h : Heap) (l : ℕ → Bool) : Heap := { h with live := l }

theorem release_blk {h : Heap} {b : ℕ} (hl : h.live b = true) :
    release (Ptr.blk b) h = some ((), marked h fun x => if x = b then false else h.live x) := by
  simp [release, hl, marked]

/-- A field of `L1` sites with `L2` matrices each, all allocated, the field being block `r`. -/
structure Held (h : Heap) (r L1 L2 : ℕ) : Prop where
  live : ∀ x, r ≤ x → x < row r L2 L1 → h.live x = true
  top_size : h.size r = L1
  top_cell : ∀ j < L1, h.cell r j = Ptr.blk (row r L2 j)
  row_size : ∀ j < L1, h.size (row r L2 j) = L2
  row_cell : ∀ j < L1, ∀ m < L2, h.cell (row r L2 j) m = Ptr.blk (row r L2 j + 1 + m)

theorem Held.marked {h : Heap} {r L1 L2 : ℕ} (H : Held h r L1 L2) (l : ℕ → Bool)
    (hl : ∀ x, r ≤ x → x < row r L2 L1 → l x = true) : Held (marked h l) r L1 L2 :=
  ⟨hl, H.top_size, H.top_cell, H.row_size, H.row_cell⟩

theorem Built.held {E : Env} {h : Heap} {L1 L2 : ℕ} {f : Bool} {h' : Heap} (hB : Built E h L1 L2 L1 f h')
    (hok : ∀ k, h.req ≤ k → k < row h.req L2 L1 → E.ok k = true) : Held h' h.req L1 L2 := by
  refine ⟨fun x h1 h2 => ?_, hB.top_size, hB.top_cell, hB.row_size, fun j hj m hm => ?_⟩
  · rw [hB.live, if_pos ⟨h1, h2⟩, hok x h1 h2]
  · have h1 := row_gt h.req L2 j
    have h2 := row_mono (r := h.req) (L2 := L2) hj
    rw [hB.row_cell j hj m hm, val, if_pos (hok _ (by omega) (by omega))]

/-- One turn of the releasing loop over the sites. -/
abbrev freeBody (lat : Ptr) (L2 : ℕ) (i : ℕ) (_ : Unit) : Prog Unit :=
  andThen (loop L2 (fun mu _ =>
    andThen (load lat i) fun O =>
    andThen (load O mu) fun q =>
    andThen (isNull q) fun z =>
    if z = true then ret () else release q) ()) fun _ =>
  andThen (load lat i) fun O =>
  andThen (isNull O) fun z =>
  if z = true then ret () else release O

/-- Releasing the matrices and the tables of the first `n` sites. -/
theorem free_sites {h : Heap} {r L1 L2 n : ℕ} (hn : n ≤ L1) (H : Held h r L1 L2) :
    ∃ s' h', loop n (freeBody (Ptr.blk r) L2) () h = some (s', h') ∧
      ∃ l, h' = marked h l ∧ ∀ x, l x = if r < x ∧ x < row r L2 n then false else h.live x := by
  refine loop_inv (fun i _ h' => ∃ l, h' = marked h l ∧
    ∀ x, l x = if r < x ∧ x < row r L2 i then false else h.live x) n _ () h ?_ ?_
  · refine ⟨h.live, rfl, fun x => ?_⟩
    rw [if_neg (by unfold row; omega)]
  · rintro i hin - - ⟨l, rfl, hl⟩
    have hi : i < L1 := by omega
    have hri := row_gt r L2 i
    have hr1 := row_mono (r := r) (L2 := L2) hi
    have hr2 := row_succ r L2 i
    have inner : ∃ s' h', loop L2 (fun mu (_ : Unit) =>
        andThen (load (Ptr.blk r) i) fun O =>
        andThen (load O mu) fun q =>
        andThen (isNull q) fun z =>
        if z = true then ret () else release q) () (marked h l) = some (s', h') ∧
        ∃ l', h' = marked h l' ∧
          ∀ x, l' x = if row r L2 i < x ∧ x < row r L2 i + 1 + L2 then false else l x := by
      refine loop_inv (fun mu _ h' => ∃ l', h' = marked h l' ∧
        ∀ x, l' x = if row r L2 i < x ∧ x < row r L2 i + 1 + mu then false else l x) L2 _ () _ ?_ ?_
      · exact ⟨l, rfl, fun x => by rw [if_neg (by omega)]⟩
      · rintro mu hmu - - ⟨l', rfl, hl'⟩
        have a1 : (marked h l').live r = true := by
          show l' r = true
          rw [hl', if_neg (by omega), hl, if_neg (by omega), H.live r le_rfl (by omega)]
        have a2 : (marked h l').live (row r L2 i) = true := by
          show l' _ = true
          rw [hl', if_neg (by omega), hl, if_neg (by omega), H.live _ (by omega) (by omega)]
        have a3 : (marked h l').live (row r L2 i + 1 + mu) = true := by
          show l' _ = true
          rw [hl', if_neg (by omega), hl, if_neg (by omega), H.live _ (by omega) (by omega)]
        have e1 : load (Ptr.blk r) i (marked h l') = some (Ptr.blk (row r L2 i), marked h l') := by
          rw [load_blk a1 (by show i < h.size r; rw [H.top_size]; exact hi)]
          show some (h.cell r i, _) = _
          rw [H.top_cell i hi]
        have e2 : load (Ptr.blk (row r L2 i)) mu (marked h l')
            = some (Ptr.blk (row r L2 i + 1 + mu), marked h l') := by
          rw [load_blk a2 (by show mu < h.size _; rw [H.row_size i hi]; exact hmu)]
          show some (h.cell _ mu, _) = _
          rw [H.row_cell i hi mu hmu]
        refine ⟨(), marked h fun x => if x = row r L2 i + 1 + mu then false else l' x, ?_, ?_⟩
        · rw [andThen_some e1, andThen_some e2]
          exact release_blk a3
        · refine ⟨_, rfl, fun x => ?_⟩
          show (if x = row r L2 i + 1 + mu then false else l' x) = _
          by_cases h1 : x = row r L2 i + 1 + mu
          · rw [if_pos h1, if_pos (by omega)]
          · rw [if_neg h1, hl']
            by_cases h2 : row r L2 i < x ∧ x < row r L2 i + 1 + mu
            · rw [if_pos h2, if_pos (by omega)]
            · rw [if_neg h2, if_neg (by omega)]
    obtain ⟨_, _, e, l', rfl, hl'⟩ := inner
    have a1 : (marked h l').live r = true := by
      show l' r = true
      rw [hl', if_neg (by omega), hl, if_neg (by omega), H.live r le_rfl (by omega)]
    have a2 : (marked h l').live (row r L2 i) = true := by
      show l' _ = true
      rw [hl', if_neg (by omega), hl, if_neg (by omega), H.live _ (by omega) (by omega)]
    have e1 : load (Ptr.blk r) i (marked h l') = some (Ptr.blk (row r L2 i), marked h l') := by
      rw [load_blk a1 (by show i < h.size r; rw [H.top_size]; exact hi)]
      show some (h.cell r i, _) = _
      rw [H.top_cell i hi]
    refine ⟨(), marked h fun x => if x = row r L2 i then false else l' x, ?_, ?_⟩
    · rw [freeBody, andThen_some e, andThen_some e1]
      exact release_blk a2
    · refine ⟨_, rfl, fun x => ?_⟩
      show (if x = row r L2 i then false else l' x) = _
      by_cases h1 : x = row r L2 i
      · rw [if_pos h1, if_pos (by omega)]
      · rw [if_neg h1, hl', hl]
        by_cases h2 : row r L2 i < x ∧ x < row r L2 i + 1 + L2
        · rw [if_pos h2, if_pos (by omega)]
        · rw [if_neg h2]
          by_cases h3 : r < x ∧ x < row r L2 i
          · rw [if_pos h3, if_pos (by omega)]
          · rw [if_neg h3, if_neg (by omega)]

/-- Releasing a field. -/
theorem free_run {h : Heap} {r L1 L2 : ℕ} (H : Held h r L1 L2) :
    free_s_site (Ptr.blk r) L1 L2 h
      = some ((), marked h fun x => if r ≤ x ∧ x < row r L2 L1 then false else h.live x) := by
  obtain ⟨_, _, e, l, rfl, hl⟩ := free_sites le_rfl H
  have hrg := row_gt r L2 L1
  have a : (marked h l).live r = true := by
    show l r = true
    rw [hl, if_neg (by omega), H.live r le_rfl hrg]
  rw [free_s_site, andThen_some e]
  refine (release_blk a).trans ?_
  show some ((), marked h fun x => if x = r then false else l x) = _
  congr 3
  funext x
  by_cases h1 : x = r
  · rw [if_pos h1, if_pos (by omega)]
  · rw [if_neg h1, hl]
    by_cases h2 : r < x ∧ x < row r L2 L1
    · rw [if_pos h2, if_pos (by omega)]
    · rw [if_neg h2, if_neg (by omega)]

/-- Releasing a field that is null goes through the null pointer. -/
theorem free_null {L1 L2 : ℕ} (h1 : 0 < L1) (h2 : 0 < L2) (h : Heap) : free_s_site Ptr.null L1 L2 h = none := by
  rw [free_s_site]
  apply andThen_none
  refine loop_none (i := 0) h1 rfl ?_
  apply andThen_none
  exact loop_none (i := 0) h2 rfl rfl

/-- Releasing a field as if it had more sites than it has. -/
theorem free_beyond {h : Heap} {r L1 L2 n : ℕ} (h2 : 0 < L2) (hn : L1 < n) (H : Held h r L1 L2) :
    free_s_site (Ptr.blk r) n L2 h = none := by
  obtain ⟨_, _, e, l, rfl, hl⟩ := free_sites le_rfl H
  rw [free_s_site]
  apply andThen_none
  refine loop_none hn e ?_
  apply andThen_none
  refine loop_none (i := 0) h2 rfl ?_
  apply andThen_none
  show (if _ ∧ L1 < h.size r then _ else none) = none
  exact if_neg (by rw [H.top_size]; omega)

/-- Nothing changed about the blocks with numbers below `n`. -/
def Below (n : ℕ) (h h' : Heap) : Prop :=
  ∀ x < n, h'.live x = h.live x ∧ h'.size x = h.size x ∧ ∀ j, h'.cell x j = h.cell x j

theorem Below.trans {m n : ℕ} {h h' h'' : Heap} (a : Below m h h') (b : Below n h' h'') (hmn : m ≤ n) :
    Below m h h'' := fun x hx =>
  ⟨(b x (by omega)).1.trans (a x hx).1, (b x (by omega)).2.1.trans (a x hx).2.1,
    fun j => ((b x (by omega)).2.2 j).trans ((a x hx).2.2 j)⟩

theorem grown_below (E : Env) (h : Heap) (n : ℕ) : Below h.req h (grown E h n) := by
  intro x hx
  refine ⟨?_, ?_, fun j => ?_⟩ <;> exact if_neg (by omega)

theorem Held.below {h h' : Heap} {r L1 L2 n : ℕ} (H : Held h r L1 L2) (hn : row r L2 L1 ≤ n)
    (hb : Below n h h') : Held h' r L1 L2 := by
  have hg := row_gt r L2 L1
  refine ⟨fun x h1 h2 => ?_, ?_, fun j hj => ?_, fun j hj => ?_, fun j hj m hm => ?_⟩
  · rw [(hb x (by omega)).1, H.live x h1 h2]
  · rw [(hb r (by omega)).2.1, H.top_size]
  · rw [(hb r (by omega)).2.2, H.top_cell j hj]
  · have := row_mono (r := r) (L2 := L2) hj
    rw [(hb _ (by omega)).2.1, H.row_size j hj]
  · have := row_mono (r := r) (L2 := L2) hj
    rw [(hb _ (by omega)).2.2, H.row_cell j hj m hm]

/-- The three outcomes of allocating a field. -/
theorem allocate_cases (E : Env) (L1 : ℕ) {L2 : ℕ} (h2 : 0 < L2) (h : Heap) :
    (allocate_s_site E L1 L2 h = none ∧ ∃ k, h.req ≤ k ∧ k < row h.req L2 L1 ∧ E.ok k = false) ∨
    ((∃ h', allocate_s_site E L1 L2 h = some (Ptr.null, h')) ∧
      ∃ k, h.req ≤ k ∧ k < row h.req L2 L1 ∧ E.ok k = false) ∨
    (∃ h', allocate_s_site E L1 L2 h = some (Ptr.blk h.req, h') ∧ h'.req = row h.req L2 L1 ∧
      Below h.req h h' ∧ (∀ x, row h.req L2 L1 ≤ x → h'.live x = h.live x) ∧ Held h' h.req L1 L2 ∧
      ∀ k, h.req ≤ k → k < row h.req L2 L1 → E.ok k = true) := by
  have hg := row_gt h.req L2 L1
  by_cases ht : E.ok h.req = true
  · by_cases hk : ∃ i < L1, E.ok (row h.req L2 i) = false
    · obtain ⟨i, hi, hf⟩ := hk
      have := row_mono (r := h.req) (L2 := L2) hi
      have := row_gt h.req L2 i
      exact Or.inl ⟨allocate_undefined h2 ht ⟨i, hi, hf⟩, _, by omega, by omega, hf⟩
    · obtain ⟨f, h', e, hB⟩ := allocate_run (E := E) (h := h) (L1 := L1) (L2 := L2) ht (by
        intro i hi
        by_contra hc
        exact hk ⟨i, hi, by simpa using hc⟩)
      cases f with
      | true => exact Or.inr (Or.inl ⟨⟨h', e⟩, hB.flag_iff.1 rfl⟩)
      | false =>
        have hok : ∀ k, h.req ≤ k → k < row h.req L2 L1 → E.ok k = true := by
          intro k h1 h2
          by_contra hc
          have := hB.flag_iff.2 ⟨k, h1, h2, by simpa using hc⟩
          cases this
        refine Or.inr (Or.inr ⟨h', e, hB.req, fun x hx => ⟨?_, hB.size x hx, hB.cell x hx⟩, fun x hx => ?_,
          hB.held hok, hok⟩)
        · rw [hB.live, if_neg (by omega)]
        · rw [hB.live, if_neg (by omega)]
  · have ht' : E.ok h.req = false := by simpa using ht
    exact Or.inr (Or.inl ⟨⟨_, allocate_refused L1 L2 ht'⟩, h.req, le_rfl, hg, ht'⟩)

end GLU.Alloc
