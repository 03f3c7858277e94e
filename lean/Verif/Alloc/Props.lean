import Verif.Alloc.Lemmas
import Verif.Alloc.Spec
import Mathlib.Data.Nat.ModEq

/-!
# C119: Running out of memory

For every pattern of granted and refused requests.
-/

namespace GLU.Alloc

theorem row_eq (r L2 L1 : ℕ) : row r L2 L1 = r + requests L1 L2 := by
  unfold row requests; ring

theorem granted_iff {E : Env} {r L1 L2 : ℕ} :
    Granted E r (requests L1 L2) ↔ ∀ k, r ≤ k → k < row r L2 L1 → E.ok k = true := by
  rw [row_eq]
  constructor
  · intro hG k h1 h2
    have := hG (k - r) (by omega)
    rwa [show r + (k - r) = k by omega] at this
  · intro hk k h
    exact hk _ (by omega) (by omega)

/-- All requests granted. -/
theorem allocate_granted {E : Env} {L1 L2 : ℕ} {h : Heap} (h2 : 0 < L2) (hG : Granted E h.req (requests L1 L2)) :
    ∃ h', allocate_s_site E L1 L2 h = some (Ptr.blk h.req, h') ∧ h'.req = row h.req L2 L1 ∧
      Below h.req h h' ∧ (∀ x, row h.req L2 L1 ≤ x → h'.live x = h.live x) ∧ Held h' h.req L1 L2 := by
  rw [granted_iff] at hG
  rcases allocate_cases E L1 h2 h with ⟨-, k, h3, h4, h5⟩ | ⟨-, k, h3, h4, h5⟩ | ⟨h', e, a, b, c, d, -⟩
  · rw [hG k h3 h4] at h5; cases h5
  · rw [hG k h3 h4] at h5; cases h5
  · exact ⟨h', e, a, b, c, d⟩

/-- If every request is granted, the field that is returned can be used: all its matrices are there, they do not
overlap each other or anything older, nothing older is changed, and releasing the field gives back exactly what it
took. -/
theorem C119_field {E : Env} {L1 L2 : ℕ} {h : Heap} (hf : Fresh h) (h2 : 0 < L2)
    (hG : Granted E h.req (requests L1 L2)) :
    ∃ p h', allocate_s_site E L1 L2 h = some (p, h') ∧ p ≠ Ptr.null ∧ Usable h h' p L1 L2 ∧
      (∀ x, h.live x = true → h'.live x = true ∧ ∀ j, h'.cell x j = h.cell x j) ∧
      ∃ h'', free_s_site p L1 L2 h' = some ((), h'') ∧ SameBlocks h h'' := by
  obtain ⟨h', e, hr, hb, ha, hH⟩ := allocate_granted h2 hG
  refine ⟨_, h', e, by simp, ⟨fun i mu => row h.req L2 i + 1 + mu, ?_, ?_⟩, ?_, _, free_run hH, ?_⟩
  · intro i hi mu hmu
    have h3 := row_gt h.req L2 i
    have h4 := row_mono (r := h.req) (L2 := L2) hi
    dsimp only
    refine ⟨Ptr.blk (row h.req L2 i), ?_, ?_, hH.live _ (by omega) (by omega), hf _ (by omega)⟩
    · rw [load_blk (hH.live _ le_rfl (row_gt _ _ _)) (by rw [hH.top_size]; exact hi), hH.top_cell i hi]
    · rw [load_blk (hH.live _ (by omega) (by omega)) (by rw [hH.row_size i hi]; exact hmu),
        hH.row_cell i hi mu hmu]
  · intro i hi mu hmu i' hi' mu' hmu' he
    rcases lt_trichotomy i i' with hlt | heq | hgt
    · have := row_mono (r := h.req) (L2 := L2) hlt
      simp only at he
      omega
    · subst heq
      simp only at he
      exact ⟨rfl, by omega⟩
    · have := row_mono (r := h.req) (L2 := L2) hgt
      simp only at he
      omega
  · intro x hx
    have : x < h.req := by
      by_contra hc
      rw [hf x (by omega)] at hx; cases hx
    exact ⟨(hb x this).1.trans hx, (hb x this).2.2⟩
  · intro x
    show (if h.req ≤ x ∧ x < row h.req L2 L1 then false else h'.live x) = h.live x
    by_cases h3 : h.req ≤ x ∧ x < row h.req L2 L1
    · rw [if_pos h3, hf x h3.1]
    · rw [if_neg h3]
      by_cases h4 : x < h.req
      · exact (hb x h4).1
      · exact ha x (by omega)

/-- If the first request is refused, null is returned and nothing is lost. -/
theorem C119_field_refused {E : Env} {h : Heap} (hf : Fresh h) (L1 L2 : ℕ) (hk : E.ok h.req = false) :
    ∃ h', allocate_s_site E L1 L2 h = some (Ptr.null, h') ∧ SameBlocks h h' := by
  refine ⟨_, allocate_refused L1 L2 hk, fun x => ?_⟩
  show (if x = h.req then E.ok h.req else h.live x) = h.live x
  by_cases h1 : x = h.req
  · rw [if_pos h1, hk, h1, hf _ le_rfl]
  · rw [if_neg h1]

/-- If the request for the table of a site is refused, its entries are set all the same, through a pointer that
is null or was never set. -/
theorem C119_field_table_fails {E : Env} {h : Heap} {L1 L2 : ℕ} (h2 : 0 < L2) (ht : E.ok h.req = true)
    {i : ℕ} (hi : i < L1) (hk : E.ok (h.req + 1 + i * (L2 + 1)) = false) :
    allocate_s_site E L1 L2 h = none :=
  allocate_undefined h2 ht ⟨i, hi, hk⟩

/-- If only matrices are refused, null is returned but everything that was granted stays allocated, with no
pointer to it left. -/
theorem C119_field_matrix_leaks {E : Env} {h : Heap} {L1 L2 : ℕ} (ht : E.ok h.req = true)
    (hrow : ∀ i < L1, E.ok (h.req + 1 + i * (L2 + 1)) = true)
    (hk : ∃ k < requests L1 L2, E.ok (h.req + k) = false) :
    ∃ h', allocate_s_site E L1 L2 h = some (Ptr.null, h') ∧
      ∀ k < requests L1 L2, E.ok (h.req + k) = true → h'.live (h.req + k) = true := by
  obtain ⟨f, h', e, hB⟩ := allocate_run (E := E) (h := h) (L1 := L1) (L2 := L2) ht hrow
  obtain ⟨k, hk, hf⟩ := hk
  have hff : f = true := hB.flag_iff.2 ⟨h.req + k, by omega, by rw [row_eq]; omega, hf⟩
  subst hff
  refine ⟨h', e, fun k hk hok => ?_⟩
  rw [hB.live, if_pos ⟨by omega, by rw [row_eq]; omega⟩, hok]

/-- Smearing with all requests granted succeeds and gives all its memory back. -/
theorem C119_smear4D_partial {E : Env} {lcu ND w : ℕ} {h : Heap} (hf : Fresh h) (h2 : 0 < ND)
    (hG : Granted E h.req (requests lcu ND + 2 * requests (w * lcu) ND)) :
    ∃ h', smear4D E lcu ND w true h = some (true, h') ∧ SameBlocks h h' := by
  obtain ⟨h1, e1, r1, b1, a1, H1⟩ := allocate_granted (E := E) (L1 := lcu) (h := h) h2
    (fun k hk => hG k (by omega))
  have q1 := row_eq h.req ND lcu
  obtain ⟨h3, e3, r3, b3, a3, H3⟩ := allocate_granted (E := E) (L1 := w * lcu) (h := h1) h2 (fun k hk => by
    have := hG (requests lcu ND + k) (by omega)
    rwa [show h1.req + k = h.req + (requests lcu ND + k) by omega])
  have q3 := row_eq h1.req ND (w * lcu)
  obtain ⟨h4, e4, r4, b4, a4, H4⟩ := allocate_granted (E := E) (L1 := w * lcu) (h := h3) h2 (fun k hk => by
    have := hG (requests lcu ND + requests (w * lcu) ND + k) (by omega)
    rwa [show h3.req + k = h.req + (requests lcu ND + requests (w * lcu) ND + k) by omega])
  have q4 := row_eq h3.req ND (w * lcu)
  have F1 : Held h4 h.req lcu ND := (H1.below (by omega) b3).below (n := h3.req) (by omega) b4
  have F3 : Held h4 h1.req (w * lcu) ND := H3.below (n := h3.req) (by omega) b4
  have g1 := free_run F1
  have G3 := F3.marked (fun x => if h.req ≤ x ∧ x < row h.req ND lcu then false else h4.live x)
    (fun x h5 h6 => by rw [if_neg (by omega), F3.live x h5 h6])
  have g3 := free_run G3
  have G4 := (H4.marked (fun x => if h.req ≤ x ∧ x < row h.req ND lcu then false else h4.live x)
    (fun x h5 h6 => by rw [if_neg (by omega), H4.live x h5 h6])).marked
      (fun x => if h1.req ≤ x ∧ x < row h1.req ND (w * lcu) then false else
        (marked h4 fun x => if h.req ≤ x ∧ x < row h.req ND lcu then false else h4.live x).live x)
      (fun x h5 h6 => by
        rw [if_neg (by omega)]
        show (if _ then false else h4.live x) = true
        rw [if_neg (by omega), H4.live x h5 h6])
  have g4 := free_run G4
  refine ⟨?_, ?_, ?_⟩
  rotate_left
  · simp only [smear4D, Bool.true_eq_false, if_false]
    rw [andThen_some e1, if_neg (by simp), andThen_some e3, if_neg (by simp), andThen_some e4, if_neg (by simp),
      andThen_some g1, andThen_some g3, andThen_some g4]
    rfl
  · intro x
    show (if h3.req ≤ x ∧ x < row h3.req ND (w * lcu) then false else
      if h1.req ≤ x ∧ x < row h1.req ND (w * lcu) then false else
      if h.req ≤ x ∧ x < row h.req ND lcu then false else h4.live x) = h.live x
    by_cases hx : x < h.req
    · rw [if_neg (by omega), if_neg (by omega), if_neg (by omega), (b4 x (by omega)).1, (b3 x (by omega)).1,
        (b1 x hx).1]
    · rw [hf x (by omega)]
      split_ifs with i1 i2 i3
      · rfl
      · rfl
      · rfl
      · rw [a4 x (by omega), a3 x (by omega), a1 x (by omega), hf x (by omega)]

/-- Smearing with any request refused is undefined: either the allocation goes through the missing pointer or the
clean-up does. The failure that the code means to report is never reported. -/
theorem C119_smear4D_refused_fails {E : Env} {lcu ND w : ℕ} {h : Heap} (h1 : 0 < lcu) (h2 : 0 < ND) (hw : 0 < w)
    (hk : ¬ Granted E h.req (requests lcu ND + 2 * requests (w * lcu) ND)) :
    smear4D E lcu ND w true h = none := by
  have hwl : 0 < w * lcu := Nat.mul_pos hw h1
  simp only [smear4D, Bool.true_eq_false, if_false]
  rcases allocate_cases E lcu h2 h with ⟨e, -⟩ | ⟨⟨h', e⟩, -⟩ | ⟨h1', e1, r1, b1, -, H1, k1⟩
  · exact andThen_none e
  · rw [andThen_some e, if_pos rfl]
    exact andThen_none (free_null h1 h2 h')
  rw [andThen_some e1, if_neg (by simp)]
  have q1 := row_eq h.req ND lcu
  rcases allocate_cases E (w * lcu) h2 h1' with ⟨e, -⟩ | ⟨⟨h', e⟩, -⟩ | ⟨h3, e3, r3, b3, -, H3, k3⟩
  · exact andThen_none e
  · rw [andThen_some e, if_pos rfl]
    generalize free_s_site (Ptr.blk h.req) lcu ND = X
    rw [andThen]
    cases X h' with
    | none => rfl
    | some p => exact andThen_none (free_null hwl h2 p.2)
  rw [andThen_some e3, if_neg (by simp)]
  have q3 := row_eq h1'.req ND (w * lcu)
  rcases allocate_cases E (w * lcu) h2 h3 with ⟨e, -⟩ | ⟨⟨h', e⟩, -⟩ | ⟨h4, e4, r4, b4, -, H4, k4⟩
  · exact andThen_none e
  · rw [andThen_some e, if_pos rfl]
    generalize free_s_site (Ptr.blk h.req) lcu ND = X
    generalize free_s_site (Ptr.blk h1'.req) (w * lcu) ND = Y
    rw [andThen]
    cases X h' with
    | none => rfl
    | some p =>
      show andThen Y _ p.2 = none
      rw [andThen]
      cases Y p.2 with
      | none => rfl
      | some q => exact andThen_none (free_null hwl h2 q.2)
  exfalso
  apply hk
  have q4 := row_eq h3.req ND (w * lcu)
  intro k hk
  by_cases c1 : h.req + k < row h.req ND lcu
  · exact k1 _ (by omega) c1
  · by_cases c3 : h.req + k < row h1'.req ND (w * lcu)
    · exact k3 _ (by omega) c3
    · exact k4 _ (by omega) (by omega)

/-- Asking for a projection that does not exist is undefined as well: the clean-up releases fields that were never
allocated. -/
theorem C119_smear4D_unknown_fails {lcu ND : ℕ} (E : Env) (w : ℕ) (h : Heap) (h1 : 0 < lcu) (h2 : 0 < ND) :
    smear4D E lcu ND w false h = none := by
  simp only [smear4D, if_true]
  exact andThen_none (free_null h1 h2 h)

/-- A field that cannot be read leaves every table and every matrix of it allocated. -/
theorem C119_read_leaks {E : Env} {vol ND : ℕ} {h : Heap} (h2 : 0 < ND)
    (hG : Granted E h.req (requests vol ND)) :
    ∃ h', read_file E vol ND false h = some (Ptr.null, h') ∧
      ∀ k, 0 < k → k < requests vol ND → h'.live (h.req + k) = true := by
  obtain ⟨h1, e1, r1, b1, a1, H1⟩ := allocate_granted (E := E) (h := h) h2 hG
  have q1 := row_eq h.req ND vol
  have hl := H1.live h.req le_rfl (row_gt _ _ _)
  refine ⟨?_, ?_, ?_⟩
  rotate_left
  · rw [read_file, andThen_some e1, if_neg (by simp), if_neg (by simp), andThen_some (release_blk hl)]
    rfl
  · intro k h3 h4
    show (if h.req + k = h.req then false else h1.live (h.req + k)) = true
    rw [if_neg (by omega), H1.live _ (by omega) (by omega)]

/-- The steps of `flow_RK3` up to and including the second field, all granted. -/
theorem flow_fields {E : Env} {vol ND : ℕ} {h : Heap} (hf : Fresh h) (h2 : 0 < ND)
    (hG : Granted E h.req (2 * requests vol ND)) :
    ∃ h1 h3, allocate_s_site E vol ND h = some (Ptr.blk h.req, h1) ∧
      allocate_s_site E vol ND h1 = some (Ptr.blk h1.req, h3) ∧ h3.req = h.req + 2 * requests vol ND ∧
      Fresh h3 ∧ ∀ h4, Below h3.req h3 h4 → (∀ x, h3.req ≤ x → h4.live x = false) →
        ∃ h5 h6, free_s_site (Ptr.blk h.req) vol ND h4 = some ((), h5) ∧
          free_s_site (Ptr.blk h1.req) vol ND h5 = some ((), h6) ∧ SameBlocks h h6 := by
  obtain ⟨h1, e1, r1, b1, a1, H1⟩ := allocate_granted (E := E) (L1 := vol) (h := h) h2
    (fun k hk => hG k (by omega))
  have q1 := row_eq h.req ND vol
  obtain ⟨h3, e3, r3, b3, a3, H3⟩ := allocate_granted (E := E) (L1 := vol) (h := h1) h2 (fun k hk => by
    have := hG (requests vol ND + k) (by omega)
    rwa [show h1.req + k = h.req + (requests vol ND + k) by omega])
  have q3 := row_eq h1.req ND vol
  refine ⟨h1, h3, e1, e3, by omega, fun x hx => ?_, fun h4 b4 l4 => ?_⟩
  · rw [a3 x (by omega), a1 x (by omega), hf x (by omega)]
  have F1 : Held h4 h.req vol ND := (H1.below (by omega) b3).below (n := h3.req) (by omega) b4
  have F3 : Held h4 h1.req vol ND := H3.below (n := h3.req) (by omega) b4
  have G3 := F3.marked (fun x => if h.req ≤ x ∧ x < row h.req ND vol then false else h4.live x)
    (fun x h5 h6 => by rw [if_neg (by omega), F3.live x h5 h6])
  refine ⟨_, _, free_run F1, free_run G3, fun x => ?_⟩
  show (if h1.req ≤ x ∧ x < row h1.req ND vol then false else
      if h.req ≤ x ∧ x < row h.req ND vol then false else h4.live x) = h.live x
  by_cases hx : x < h.req
  · rw [if_neg (by omega), if_neg (by omega), (b4 x (by omega)).1, (b3 x (by omega)).1, (b1 x hx).1]
  · rw [hf x (by omega)]
    split_ifs with i1 i2
    · rfl
    · rfl
    · exact l4 x (by omega)

/-- The flow with all requests granted runs, and gives all its memory back. -/
theorem C119_flow_partial {E : Env} {vol ND : ℕ} {h : Heap} (hf : Fresh h) (h2 : 0 < ND)
    (hG : Granted E h.req (2 * requests vol ND + 1)) :
    ∃ h', flow_RK3 E vol ND h = some ((true, true), h') ∧ SameBlocks h h' := by
  obtain ⟨h1, h3, e1, e3, r3, hf3, hfree⟩ := flow_fields (E := E) (vol := vol) hf h2 (fun k hk => hG k (by omega))
  have hok : E.ok h3.req = true := by
    have := hG (2 * requests vol ND) (by omega)
    rwa [r3]
  have e4 := malloc_apply E 0 h3
  rw [if_pos hok] at e4
  have hl : (grown E h3 0).live h3.req = true := by
    show (if h3.req = h3.req then E.ok h3.req else _) = true
    rw [if_pos rfl, hok]
  have hb := grown_below E h3 0
  obtain ⟨h5, h6, f1, f3, hs⟩ := hfree
    (marked (grown E h3 0) fun x => if x = h3.req then false else (grown E h3 0).live x) (by
      intro x hx
      refine ⟨?_, (hb x hx).2.1, (hb x hx).2.2⟩
      show (if x = h3.req then false else (grown E h3 0).live x) = h3.live x
      rw [if_neg (by omega), (hb x hx).1]) (by
      intro x hx
      show (if x = h3.req then false else if x = h3.req then _ else h3.live x) = false
      by_cases hx' : x = h3.req
      · rw [if_pos hx']
      · rw [if_neg hx', if_neg hx']
        exact hf3 x hx)
  refine ⟨h6, ?_, hs⟩
  simp only [flow_RK3]
  rw [andThen_some e1, if_neg (by simp), andThen_some e3, if_neg (by simp), andThen_some e4, if_neg (by simp)]
  rw [andThen_some (show isNull (Ptr.blk h3.req) (grown E h3 0) = some (false, grown E h3 0) from rfl)]
  simp only [Bool.false_eq_true, if_false]
  rw [andThen_some (release_blk hl), andThen_some f1, andThen_some f3]
  rfl

/-- If only the last request, for the array of sums, is refused, the flow reports success although it did not
run. -/
theorem C119_flow_silent_fails {E : Env} {vol ND : ℕ} {h : Heap} (hf : Fresh h) (h2 : 0 < ND)
    (hG : Granted E h.req (2 * requests vol ND)) (hk : E.ok (h.req + 2 * requests vol ND) = false) :
    ∃ h', flow_RK3 E vol ND h = some ((true, false), h') ∧ SameBlocks h h' := by
  obtain ⟨h1, h3, e1, e3, r3, hf3, hfree⟩ := flow_fields (E := E) (vol := vol) hf h2 hG
  rw [← r3] at hk
  have e4 := malloc_apply E 0 h3
  rw [if_neg (by rw [hk]; simp)] at e4
  obtain ⟨h5, h6, f1, f3, hs⟩ := hfree (grown E h3 0) (grown_below E h3 0) (by
      intro x hx
      show (if x = h3.req then E.ok h3.req else h3.live x) = false
      by_cases hx' : x = h3.req
      · rw [if_pos hx', hk]
      · rw [if_neg hx', hf3 x hx])
  refine ⟨h6, ?_, hs⟩
  simp only [flow_RK3]
  rw [andThen_some e1, if_neg (by simp), andThen_some e3, if_neg (by simp), andThen_some e4, if_pos rfl]
  rw [andThen_some (show isNull Ptr.null (grown E h3 0) = some (true, grown E h3 0) from rfl)]
  simp only [if_true]
  rw [andThen_some (show ret () (grown E h3 0) = some ((), grown E h3 0) from rfl), andThen_some f1,
    andThen_some f3]
  rfl

/-- If any request for the fields of the flow is refused, the outcome is undefined. -/
theorem C119_flow_refused_fails {E : Env} {vol ND : ℕ} {h : Heap} (h1 : 0 < vol) (h2 : 0 < ND)
    (hk : ¬ Granted E h.req (2 * requests vol ND)) : flow_RK3 E vol ND h = none := by
  simp only [flow_RK3]
  rcases allocate_cases E vol h2 h with ⟨e, -⟩ | ⟨⟨h', e⟩, -⟩ | ⟨h1', e1, r1, b1, -, H1, k1⟩
  · exact andThen_none e
  · rw [andThen_some e, if_pos rfl]
    exact andThen_all fun _ _ => andThen_all fun _ h' => andThen_none (free_null h1 h2 h')
  rw [andThen_some e1, if_neg (by simp)]
  have q1 := row_eq h.req ND vol
  rcases allocate_cases E vol h2 h1' with ⟨e, -⟩ | ⟨⟨h', e⟩, -⟩ | ⟨h3, e3, r3, b3, -, H3, k3⟩
  · exact andThen_none e
  · rw [andThen_some e, if_pos rfl]
    generalize free_s_site (Ptr.blk h.req) vol ND = X
    show andThen X _ h' = none
    rw [andThen]
    cases X h' with
    | none => rfl
    | some p => exact andThen_none (free_null h1 h2 p.2)
  exfalso
  apply hk
  have q3 := row_eq h1'.req ND vol
  intro k hk
  by_cases c1 : h.req + k < row h.req ND vol
  · exact k1 _ (by omega) c1
  · exact k3 _ (by omega) (by omega)

/-- The memory-saving flow with improved smearing (`w = 2`) is undefined for every pattern of answers, also if
everything is granted: one of its fields has one time slice and is released as two. -/
theorem C119_flow_memcheap_fails {lcu vol ND w : ℕ} (E : Env) (h : Heap) (h1 : 0 < lcu) (hv : 0 < vol)
    (h2 : 0 < ND) (hw : 1 < w) : flow_RK3_memcheap E lcu vol ND w h = none := by
  have hwl : lcu < w * lcu := by nlinarith
  have hwl0 : 0 < w * lcu := by omega
  simp only [flow_RK3_memcheap]
  rcases allocate_cases E lcu h2 h with ⟨e, -⟩ | ⟨⟨h', e⟩, -⟩ | ⟨h1', e1, r1, b1, -, H1, k1⟩
  · exact andThen_none e
  · rw [andThen_some e, if_pos rfl]
    exact andThen_all fun _ _ => andThen_all fun _ h' => andThen_none (free_null hv h2 h')
  rw [andThen_some e1, if_neg (by simp)]
  rcases allocate_cases E vol h2 h1' with ⟨e, -⟩ | ⟨⟨h', e⟩, -⟩ | ⟨h3, e3, r3, b3, -, H3, k3⟩
  · exact andThen_none e
  · rw [andThen_some e, if_pos rfl]
    exact andThen_all fun _ _ => andThen_all fun _ h' => andThen_none (free_null hv h2 h')
  rw [andThen_some e3, if_neg (by simp)]
  have q1 := row_gt h1'.req ND vol
  -- releasing the whole field first, the time slice then fails
  have hmain : ∀ h4 : Heap, Below h3.req h3 h4 → ∀ f : Unit → Prog (Bool × Bool),
      andThen (free_s_site (Ptr.blk h1'.req) vol ND) (fun _ =>
        andThen (free_s_site (Ptr.blk h.req) (w * lcu) ND) f) h4 = none := by
    intro h4 b4 f
    have F1 : Held h4 h.req lcu ND := (H1.below (by omega) b3).below (n := h3.req) (by omega) b4
    have F3 : Held h4 h1'.req vol ND := H3.below (n := h3.req) (by omega) b4
    rw [andThen_some (free_run F3)]
    exact andThen_none (free_beyond h2 hwl (F1.marked _ (fun x h5 h6 => by
      rw [if_neg (by omega), F1.live x h5 h6])))
  rcases allocate_cases E (w * lcu) h2 h3 with ⟨e, -⟩ | ⟨⟨h', e⟩, -⟩ | ⟨h4, e4, r4, b4, -, H4, k4⟩
  · exact andThen_none e
  · rw [andThen_some e, if_pos rfl]
    exact andThen_all fun _ _ => andThen_all fun _ _ => andThen_all fun _ _ => andThen_all fun _ h' =>
      andThen_none (free_null hwl0 h2 h')
  rw [andThen_some e4, if_neg (by simp)]
  have q4 := row_gt h3.req ND (w * lcu)
  rcases allocate_cases E (w * lcu) h2 h4 with ⟨e, -⟩ | ⟨⟨h', e⟩, -⟩ | ⟨h5, e5, r5, b5, -, H5, k5⟩
  · exact andThen_none e
  · rw [andThen_some e, if_pos rfl]
    exact andThen_all fun _ _ => andThen_all fun _ _ => andThen_all fun _ _ => andThen_all fun _ _ =>
      andThen_all fun _ h' => andThen_none (free_null hwl0 h2 h')
  have q5 := row_gt h4.req ND (w * lcu)
  rw [andThen_some e5, if_neg (by simp), andThen_some (malloc_apply E 0 h5)]
  have b6 : Below h3.req h3 (grown E h5 0) :=
    (b4.trans b5 (by omega)).trans (grown_below E h5 0) (by omega)
  by_cases hk : E.ok h5.req = true
  · rw [if_pos hk, if_neg (by simp)]
    rw [andThen_some (show isNull (Ptr.blk h5.req) (grown E h5 0) = some (false, grown E h5 0) from rfl)]
    simp only [Bool.false_eq_true, if_false]
    have hl : (grown E h5 0).live h5.req = true := by
      show (if h5.req = h5.req then E.ok h5.req else _) = true
      rw [if_pos rfl, hk]
    rw [andThen_some (release_blk hl)]
    refine hmain (marked (grown E h5 0) fun x => if x = h5.req then false else (grown E h5 0).live x)
      (fun x hx => ⟨?_, (b6 x hx).2.1, (b6 x hx).2.2⟩) _
    show (if x = h5.req then false else (grown E h5 0).live x) = h3.live x
    rw [if_neg (by omega), (b6 x hx).1]
  · rw [if_neg hk, if_pos rfl]
    rw [andThen_some (show isNull Ptr.null (grown E h5 0) = some (true, grown E h5 0) from rfl)]
    simp only [if_true]
    rw [andThen_some (show ret () (grown E h5 0) = some ((), grown E h5 0) from rfl)]
    exact hmain _ b6 _

end GLU.Alloc
