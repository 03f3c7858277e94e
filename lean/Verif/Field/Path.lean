import Verif.Field.Lemmas

/-!
# Products of links along paths

A small specification used to state what the loops of the code are: a path is a list of steps, each a direction and
whether it is taken forwards, and the transporter along it is the ordered product of the links passed, conjugated
when passed backwards.
-/

namespace GLU.Field

open Complex GLU.Mat GLU.Geom GLU.Sched Matrix

/-- A step: direction and whether it is taken forwards. -/
abbrev Step := ℕ × Bool

/-- The site reached by one step. -/
def hop (L : Latt) (i : ℕ) (s : Step) : ℕ := if s.2 then neighbor L i s.1 else back L i s.1

/-- The matrix of one step. -/
noncomputable def hopLink (NC : ℕ) (L : Latt) (lat : Gauge) (i : ℕ) (s : Step) : Matrix (Fin NC) (Fin NC) ℂ :=
  if s.2 then link NC lat i s.1 else (link NC lat (back L i s.1) s.1)ᴴ

/-- The site at the end of a path. -/
def pathEnd (L : Latt) (i : ℕ) : List Step → ℕ
  | [] => i
  | s :: p => pathEnd L (hop L i s) p

/-- The product of the links along a path. -/
noncomputable def along (NC : ℕ) (L : Latt) (lat : Gauge) : ℕ → List Step → Matrix (Fin NC) (Fin NC) ℂ
  | _, [] => 1
  | i, s :: p => hopLink NC L lat i s * along NC L lat (hop L i s) p

/-- The opposite step. -/
def rev (s : Step) : Step := (s.1, !s.2)

/-- The rectangle: `m` steps `a`, `n` steps `b`, and back. -/
def rect (a : Step) (m : ℕ) (b : Step) (n : ℕ) : List Step :=
  List.replicate m a ++ (List.replicate n b ++ (List.replicate m (rev a) ++ List.replicate n (rev b)))

/-- All steps of the path are in directions of the lattice. -/
def InDirs (L : Latt) (p : List Step) : Prop := ∀ s ∈ p, s.1 < L.ND

theorem hop_lt {L : Latt} (hL : Valid L) (i : ℕ) {s : Step} (hs : s.1 < L.ND) : hop L i s < volume L := by
  unfold hop
  split
  · exact neighbor_lt hL i hs
  · exact back_lt hL i hs

theorem hop_rev {L : Latt} (hL : Valid L) {i : ℕ} (hi : i < volume L) {s : Step} (hs : s.1 < L.ND) :
    hop L (hop L i s) (rev s) = i := by
  obtain ⟨mu, b⟩ := s
  have h := C02_inverse hL hi hs
  cases b <;> simp [hop, rev, h.1, h.2]

theorem hop_comm {L : Latt} (hL : Valid L) {i : ℕ} {s t : Step} (hs : s.1 < L.ND) (ht : t.1 < L.ND) :
    hop L (hop L i s) t = hop L (hop L i t) s := by
  obtain ⟨mu, b⟩ := s
  obtain ⟨nu, c⟩ := t
  have h := C02_commute hL (i := i) hs ht
  have h' := C02_commute hL (i := i) ht hs
  cases b <;> cases c <;> simp [hop, h.1, h.2.1, h.2.2, h'.2.1]

theorem pathEnd_append (L : Latt) (p q : List Step) (i : ℕ) :
    pathEnd L i (p ++ q) = pathEnd L (pathEnd L i p) q := by
  induction p generalizing i with
  | nil => rfl
  | cons s p ih => exact ih _

theorem along_append (NC : ℕ) (L : Latt) (lat : Gauge) (p q : List Step) (i : ℕ) :
    along NC L lat i (p ++ q) = along NC L lat i p * along NC L lat (pathEnd L i p) q := by
  induction p generalizing i with
  | nil => simp [along, pathEnd]
  | cons s p ih => simp only [List.cons_append, along, pathEnd, ih, Matrix.mul_assoc]

theorem pathEnd_lt {L : Latt} (hL : Valid L) {p : List Step} (hp : InDirs L p) {i : ℕ} (hi : i < volume L) :
    pathEnd L i p < volume L := by
  induction p generalizing i with
  | nil => exact hi
  | cons s p ih =>
    exact ih (fun t ht => hp t (List.mem_cons_of_mem _ ht)) (hop_lt hL i (hp s List.mem_cons_self))

/-- The end of a path only depends on the numbers of steps. -/
theorem pathEnd_perm {L : Latt} (hL : Valid L) {p q : List Step} (h : p.Perm q) (hp : InDirs L p) (i : ℕ) :
    pathEnd L i p = pathEnd L i q := by
  induction h generalizing i with
  | nil => rfl
  | cons x _ ih => exact ih (fun t ht => hp t (List.mem_cons_of_mem _ ht)) _
  | swap x y l =>
    simp only [pathEnd]
    rw [hop_comm hL (hp y (by simp)) (hp x (by simp))]
  | trans h1 _ ih1 ih2 =>
    exact (ih1 hp i).trans (ih2 (fun t ht => hp t (h1.mem_iff.2 ht)) i)

theorem pathEnd_cancel {L : Latt} (hL : Valid L) {s : Step} (hs : s.1 < L.ND) (n : ℕ) {i : ℕ} (hi : i < volume L) :
    pathEnd L i (List.replicate n s ++ List.replicate n (rev s)) = i := by
  have hin : ∀ m, InDirs L (List.replicate m s) := fun m t ht => by rw [List.eq_of_mem_replicate ht]; exact hs
  induction n with
  | zero => rfl
  | succ n ih =>
    rw [List.replicate_succ', List.replicate_succ, List.append_assoc, pathEnd_append, List.singleton_append]
    simp only [pathEnd]
    rw [hop_rev hL (pathEnd_lt hL (hin n) hi) hs, ← pathEnd_append, ih]

theorem rect_inDirs {L : Latt} {a b : Step} (ha : a.1 < L.ND) (hb : b.1 < L.ND) (m n : ℕ) : InDirs L (rect a m b n) := by
  intro t ht
  simp only [rect, List.mem_append, List.mem_replicate] at ht
  rcases ht with ⟨_, rfl⟩ | ⟨_, rfl⟩ | ⟨_, rfl⟩ | ⟨_, rfl⟩ <;> assumption

/-- A rectangle is closed. -/
theorem rect_closed {L : Latt} (hL : Valid L) {a b : Step} (ha : a.1 < L.ND) (hb : b.1 < L.ND) (m n : ℕ) {i : ℕ}
    (hi : i < volume L) : pathEnd L i (rect a m b n) = i := by
  have h : (rect a m b n).Perm ((List.replicate m a ++ List.replicate m (rev a)) ++
      (List.replicate n b ++ List.replicate n (rev b))) := by
    unfold rect
    rw [List.append_assoc]
    refine List.Perm.append_left _ ?_
    rw [← List.append_assoc, ← List.append_assoc]
    exact List.Perm.append_right _ List.perm_append_comm
  rw [pathEnd_perm hL h (rect_inDirs ha hb m n), pathEnd_append, pathEnd_cancel hL ha m hi, pathEnd_cancel hL hb n hi]

/-- The opposite path. -/
def backwards (p : List Step) : List Step := (p.map rev).reverse

theorem rev_rev (s : Step) : rev (rev s) = s := by simp [rev]

theorem backwards_rect (a : Step) (m : ℕ) (b : Step) (n : ℕ) : backwards (rect a m b n) = rect b n a m := by
  unfold backwards rect
  simp [rev_rev]

theorem hopLink_rev {NC : ℕ} {L : Latt} (hL : Valid L) (lat : Gauge) {i : ℕ} (hi : i < volume L) {s : Step}
    (hs : s.1 < L.ND) : hopLink NC L lat (hop L i s) (rev s) = (hopLink NC L lat i s)ᴴ := by
  obtain ⟨mu, b⟩ := s
  have h := C02_inverse hL hi hs
  cases b <;> simp [hop, hopLink, rev, h.1]

/-- The transporter of the opposite path is the conjugate. -/
theorem along_backwards {NC : ℕ} {L : Latt} (hL : Valid L) (lat : Gauge) {p : List Step} (hp : InDirs L p) {i : ℕ}
    (hi : i < volume L) : along NC L lat (pathEnd L i p) (backwards p) = (along NC L lat i p)ᴴ := by
  induction p generalizing i with
  | nil => simp [backwards, along]
  | cons s p ih =>
    have hs := hp s List.mem_cons_self
    have hp' : InDirs L p := fun t ht => hp t (List.mem_cons_of_mem _ ht)
    have hend : pathEnd L (pathEnd L (hop L i s) p) (backwards p) = hop L i s := by
      clear ih
      have := hop_lt hL i hs
      generalize hop L i s = j at this
      induction p generalizing j with
      | nil => rfl
      | cons t p ih2 =>
        have ht := hp' t List.mem_cons_self
        simp only [backwards, List.map_cons, List.reverse_cons, pathEnd]
        rw [pathEnd_append]
        have := ih2 (fun u hu => by
          rcases List.mem_cons.1 hu with rfl | hu
          · exact hs
          · exact hp' u (List.mem_cons_of_mem _ hu)) (fun u hu => hp' u (List.mem_cons_of_mem _ hu)) _ (hop_lt hL j ht)
        unfold backwards at this
        rw [this]
        exact hop_rev hL ‹_› ht
    rw [along, conjTranspose_mul, ← ih hp' (hop_lt hL i hs)]
    simp only [backwards, List.map_cons, List.reverse_cons, pathEnd]
    rw [along_append]
    unfold backwards at hend
    rw [hend]
    simp only [along, Matrix.mul_one]
    rw [hopLink_rev hL lat hi hs]

/-- A unitary link gives a unitary step. -/
theorem hopLink_mem {NC : ℕ} {L : Latt} (hL : Valid L) {lat : Gauge} (hU : SUField NC L lat) {i : ℕ} (hi : i < volume L)
    {s : Step} (hs : s.1 < L.ND) : hopLink NC L lat i s ∈ specialUnitaryGroup (Fin NC) ℂ := by
  unfold hopLink
  split
  · exact hU i hi s.1 hs
  · exact isSU_star (hU _ (back_lt hL i hs) s.1 hs)

theorem along_mem {NC : ℕ} {L : Latt} (hL : Valid L) {lat : Gauge} (hU : SUField NC L lat) {p : List Step}
    (hp : InDirs L p) {i : ℕ} (hi : i < volume L) : along NC L lat i p ∈ specialUnitaryGroup (Fin NC) ℂ := by
  induction p generalizing i with
  | nil => exact one_mem _
  | cons s p ih =>
    exact mul_mem (hopLink_mem hL hU hi (hp s List.mem_cons_self))
      (ih (fun t ht => hp t (List.mem_cons_of_mem _ ht)) (hop_lt hL i (hp s List.mem_cons_self)))

/-- Gauge transformation of one step. -/
theorem hopLink_transformed {NC : ℕ} {L : Latt} (hL : Valid L) {g : ℕ → Arr ℂ} {lat lat' : Gauge}
    (h : Transformed NC L g lat lat') {i : ℕ} (hi : i < volume L) {s : Step} (hs : s.1 < L.ND) :
    hopLink NC L lat' i s = toM NC (g i) * hopLink NC L lat i s * (toM NC (g (hop L i s)))ᴴ := by
  unfold hopLink hop
  split
  · exact h i hi s.1 hs
  · have e := h _ (back_lt hL i hs) s.1 hs
    rw [(C02_inverse hL hi hs).2] at e
    unfold link
    unfold link at e
    rw [e]
    simp [conjTranspose_mul, Matrix.mul_assoc]

/-- Gauge transformation of a transporter. -/
theorem along_transformed {NC : ℕ} {L : Latt} (hL : Valid L) {g : ℕ → Arr ℂ} (hg : SUGauge NC L g) {lat lat' : Gauge}
    (h : Transformed NC L g lat lat') {p : List Step} (hp : InDirs L p) {i : ℕ} (hi : i < volume L) :
    along NC L lat' i p = toM NC (g i) * along NC L lat i p * (toM NC (g (pathEnd L i p)))ᴴ := by
  induction p generalizing i with
  | nil => simp [along, pathEnd, su_mul_star (hg i hi)]
  | cons s p ih =>
    have hs := hp s List.mem_cons_self
    simp only [along, pathEnd]
    rw [hopLink_transformed hL h hi hs, ih (fun t ht => hp t (List.mem_cons_of_mem _ ht)) (hop_lt hL i hs)]
    have := su_star_mul (hg _ (hop_lt hL i hs))
    simp only [Matrix.mul_assoc]
    rw [cancel_left this]

/-- On unit links every transporter is the unit matrix. -/
theorem along_trivial {NC : ℕ} {L : Latt} (hL : Valid L) {lat : Gauge}
    (h : ∀ i < volume L, ∀ mu < L.ND, link NC lat i mu = 1) {p : List Step} (hp : InDirs L p) {i : ℕ} (hi : i < volume L) :
    along NC L lat i p = 1 := by
  induction p generalizing i with
  | nil => rfl
  | cons s p ih =>
    have hs := hp s List.mem_cons_self
    rw [along, ih (fun t ht => hp t (List.mem_cons_of_mem _ ht)) (hop_lt hL i hs), Matrix.mul_one]
    unfold hopLink
    split
    · exact h i hi _ hs
    · rw [h _ (back_lt hL i hs) _ hs, conjTranspose_one]

end GLU.Field
