import Verif.Cuts.LieCache
import Verif.Cuts.CacheProps
import Verif.Mat.LieProps

/-!
# The cached tables of structure constants (C133)
-/

namespace GLU.Cuts

open GLU.IO GLU.Mat Complex

theorem mapM_map_some (l : List Rec) : (l.map some).mapM id = some l := by
  induction l with
  | nil => rfl
  | cons r l ih => simp [List.mapM_cons, ih]

theorem mapM_id_none {l : List (Option Rec)} (h : none ∈ l) : l.mapM id = none := by
  induction l with
  | nil => simp at h
  | cons r l ih =>
    cases r with
    | none => simp [List.mapM_cons]
    | some r => simp [List.mapM_cons, ih (by simpa using h)]

theorem loopReads_full (l : List Rec) : loopReads (some l.length) (.mem (l.map some)) = .ok l := by
  simp only [loopReads, List.length_map, le_refl, if_true]
  rw [List.take_of_length_le (by simp), mapM_map_some]

theorem loopReads_filled {n : ℕ} {r : List Rec} (h : r.length ≤ n) :
    loopReads (some n) (filled n r) = if r.length = n then .ok r else .ub := by
  simp only [filled, loopReads, List.length_append, List.length_map, List.length_replicate]
  rw [if_pos (by omega), List.take_of_length_le (by simp; omega)]
  split_ifs with hn
  · subst hn
    rw [Nat.sub_self, List.replicate_zero, List.append_nil, mapM_map_some]
  · rw [mapM_id_none]
    rw [List.mem_append, List.mem_replicate]
    exact Or.inr ⟨by omega, rfl⟩

theorem length_tableBytes {w : ℕ} {ft dt : List Rec} (hf : ∀ r ∈ ft, r.length = w) (hd : ∀ r ∈ dt, r.length = w) :
    (tableBytes ft dt).length = 8 + w * ft.length + w * dt.length := by
  simp only [tableBytes, List.length_append, length_lenBytes, length_flatten hf, length_flatten hd]
  omega

theorem fread_front {w : ℕ} : ∀ {l : List Rec}, (∀ r ∈ l, r.length = w) → ∀ x, fread w l.length (l.flatten ++ x) = l
  | [], _, _ => rfl
  | r :: l, h, x => by
    have hrl := h r List.mem_cons_self
    rw [List.length_cons, fread, List.flatten_cons, List.append_assoc,
      if_pos (by rw [List.length_append]; omega), List.take_left' hrl, List.drop_left' hrl,
      fread_front fun r hr => h r (List.mem_cons_of_mem _ hr)]

/-- **C133.** What a later run reads if `k` bytes of the file were written, table by table: nothing at all from an empty
file, a complete table if all of it is there, otherwise undefined behaviour. -/
theorem C133_torn {w : ℕ} (hw : 0 < w) {ft dt : List Rec} (hf : ∀ r ∈ ft, r.length = w) (hd : ∀ r ∈ dt, r.length = w)
    (nf : ft.length < 2 ^ 32) (nd : dt.length < 2 ^ 32) (f0 : ft ≠ []) (d0 : dt ≠ []) (k : ℕ) :
    let s := readTables w ((tableBytes ft dt).take k)
    loopReads s.fcount s.f =
      (if k = 0 then .ok [] else if k < 8 + w * ft.length then .ub else .ok ft) ∧
    loopReads s.dcount s.d =
      (if k ≤ 4 then .ok [] else if k < 8 + w * ft.length + w * dt.length then .ub else .ok dt) := by
  intro s
  have pf : 0 < ft.length := List.length_pos_iff.2 f0
  have pd : 0 < dt.length := List.length_pos_iff.2 d0
  have pw : 0 < w * ft.length := Nat.mul_pos hw pf
  have pw' : 0 < w * dt.length := Nat.mul_pos hw pd
  have hlen : ((tableBytes ft dt).take k).length = min k (8 + w * ft.length + w * dt.length) := by
    rw [List.length_take, length_tableBytes hf hd]
  set b := (tableBytes ft dt).take k with hb
  by_cases h4 : k < 4
  · have hs : s = ⟨if k = 0 then some 0 else none, some 0, .null, .null⟩ := by
      have : readCount b = (if k = 0 then some 0 else none, false) := by
        unfold readCount
        rw [if_neg (by rw [hlen]; omega)]
        by_cases hk : k = 0
        · subst hk
          rw [if_pos (by rw [hb, List.take_zero]), if_pos rfl]
        · rw [if_neg (List.length_pos_iff.1 (by rw [hlen]; omega)), if_neg hk]
      show readTables w b = _
      unfold readTables
      rw [this]
      by_cases hk : k = 0 <;> simp only [hk, if_true, if_false]
    rw [hs]
    refine ⟨?_, ?_⟩
    · by_cases hk : k = 0
      · simp only [hk, if_true, loopReads]
      · rw [if_neg hk, if_neg hk, if_pos (by omega)]; rfl
    · rw [show loopReads _ _ = .ok [] from rfl, if_pos (by omega)]
  · have c1 : readCount b = (some ft.length, true) := by
      unfold readCount
      rw [if_pos (by rw [hlen]; omega), hb, List.take_take, min_eq_left (by omega)]
      unfold tableBytes
      rw [List.take_left' (length_lenBytes _), lenOf_lenBytes nf]
    have hdrop : b.drop 4 = (lenBytes dt.length ++ (ft.flatten ++ dt.flatten)).take (k - 4) := by
      rw [hb, List.drop_take]
      unfold tableBytes
      rw [List.drop_left' (length_lenBytes _)]
    by_cases h8 : k < 8
    · have c2 : readCount (b.drop 4) = (if k = 4 then some 0 else none, false) := by
        unfold readCount
        rw [if_neg (by rw [List.length_drop, hlen]; omega)]
        by_cases hk : k = 4
        · subst hk
          rw [if_pos (by rw [hdrop, Nat.sub_self, List.take_zero]), if_pos rfl]
        · rw [if_neg (List.length_pos_iff.1 (by rw [List.length_drop, hlen]; omega)), if_neg hk]
      have hs : s = ⟨some ft.length, if k = 4 then some 0 else none, .null, .null⟩ := by
        show readTables w b = _
        unfold readTables
        simp only [c1, c2]
        by_cases hk : k = 4 <;> simp only [hk, if_true, if_false]
      rw [hs]
      refine ⟨?_, ?_⟩
      · show loopReads (some ft.length) .null = _
        rw [if_neg (show ¬ k = 0 by omega), if_pos (show k < 8 + w * ft.length by omega)]
        simp only [loopReads]
        rw [if_neg (by omega)]
      · show loopReads (if k = 4 then some 0 else none) .null = _
        by_cases hk : k = 4
        · rw [if_pos hk, if_pos (show k ≤ 4 by omega)]; rfl
        · rw [if_neg hk, if_neg (show ¬ k ≤ 4 by omega),
            if_pos (show k < 8 + w * ft.length + w * dt.length by omega)]
          rfl
    · have c2 : readCount (b.drop 4) = (some dt.length, true) := by
        unfold readCount
        rw [if_pos (by rw [List.length_drop, hlen]; omega), hdrop, List.take_take, min_eq_left (by omega),
          List.take_left' (length_lenBytes _), lenOf_lenBytes nd]
      have hdrop8 : b.drop 8 = (ft.flatten ++ dt.flatten).take (k - 8) := by
        have e : b.drop 8 = (b.drop 4).drop 4 := by rw [List.drop_drop]
        rw [e, hdrop, List.drop_take, List.drop_left' (length_lenBytes _), Nat.sub_sub]
      have lf := length_flatten hf
      have ld := length_flatten hd
      rw [if_neg (show ¬ k = 0 by omega), if_neg (show ¬ k ≤ 4 by omega)]
      by_cases h1 : k < 8 + w * ft.length
      · have hr : fread w ft.length (b.drop 8) = ft.take ((k - 8) / w) := by
          rw [hdrop8, List.take_append_of_le_length (by rw [lf]; omega)]
          exact fread_take hw hf _
        have hlt : (k - 8) / w < ft.length := Nat.div_lt_of_lt_mul (by omega)
        have hs : s = ⟨some ft.length, some dt.length, filled ft.length (ft.take ((k - 8) / w)), filled dt.length []⟩ := by
          show readTables w b = _
          unfold readTables
          simp only [c1, c2, hr]
          rw [if_pos (by rw [List.length_take]; omega)]
        rw [hs, if_pos h1, if_pos (by omega)]
        refine ⟨?_, ?_⟩
        · show loopReads (some ft.length) (filled ft.length (ft.take ((k - 8) / w))) = _
          rw [loopReads_filled (by rw [List.length_take]; omega), if_neg (by rw [List.length_take]; omega)]
        · show loopReads (some dt.length) (filled dt.length []) = _
          rw [loopReads_filled (by simp), if_neg (by simp; omega)]
      · have hsplit : b.drop 8 = ft.flatten ++ dt.flatten.take (k - 8 - w * ft.length) := by
          rw [hdrop8, List.take_append, lf, List.take_of_length_le (by rw [lf]; omega)]
        have hr : fread w ft.length (b.drop 8) = ft := by
          rw [hsplit]
          exact fread_front hf _
        have hrd : fread w dt.length (b.drop (8 + w * ft.length)) = dt.take ((k - 8 - w * ft.length) / w) := by
          rw [← List.drop_drop, hsplit, List.drop_left' lf]
          exact fread_take hw hd _
        have hs : s = ⟨some ft.length, some dt.length, filled ft.length ft,
            filled dt.length (dt.take ((k - 8 - w * ft.length) / w))⟩ := by
          show readTables w b = _
          unfold readTables
          simp only [c1, c2, hr, hrd]
          rw [if_neg (by simp)]
        rw [hs, if_neg h1]
        refine ⟨?_, ?_⟩
        · show loopReads (some ft.length) (filled ft.length ft) = _
          rw [loopReads_filled le_rfl, if_pos rfl]
        · show loopReads (some dt.length) (filled dt.length _) = _
          rw [loopReads_filled (by rw [List.length_take]; omega)]
          by_cases h2 : k < 8 + w * ft.length + w * dt.length
          · have : (k - 8 - w * ft.length) / w < dt.length := Nat.div_lt_of_lt_mul (by omega)
            rw [if_pos h2, if_neg (by rw [List.length_take]; omega)]
          · have : dt.length ≤ (k - 8 - w * ft.length) / w := by
              rw [Nat.le_div_iff_mul_le hw, mul_comm]
              omega
            rw [if_neg h2, List.take_of_length_le this, if_pos rfl]

/-- **C133.** Without disturbance: the run that finds no file and every later run, whether or not it can write and whatever
it would compute itself, contract with the computed tables, and the file stays. Two colours have an empty table `d`. -/
theorem C133_cached {w : ℕ} {ft dt : List Rec} (hf : ∀ r ∈ ft, r.length = w) (hd : ∀ r ∈ dt, r.length = w)
    (nf : ft.length < 2 ^ 32) (nd : dt.length < 2 ^ 32) (ft' dt' : List Rec) (canWrite : Bool) :
    ∃ s s', compute_fs_and_ds w ft dt true none = .ok (s, some (tableBytes ft dt)) ∧
      compute_fs_and_ds w ft' dt' canWrite (some (tableBytes ft dt)) = .ok (s', some (tableBytes ft dt)) ∧
      ∀ (dec : Rec → Struc) (NC : ℕ) (A B C : Arr ℂ), ∀ x ∈ [s, s'],
        ifabcMem dec NC x A B C = .ok (fLoop (ft.map dec) (lie_data NC A) (lie_data NC B) (lie_data NC C) 0) ∧
        dabcMem dec NC x A B C = .ok (dLoop (dt.map dec) (lie_data NC A) (lie_data NC B) (lie_data NC C) 0) := by
  refine ⟨_, _, rfl, rfl, fun dec NC A B C x hx => ?_⟩
  have c1 : readCount (tableBytes ft dt) = (some ft.length, true) := by
    unfold readCount
    rw [if_pos (by rw [length_tableBytes hf hd]; omega)]
    unfold tableBytes
    rw [List.take_left' (length_lenBytes _), lenOf_lenBytes nf]
  have d1 : (tableBytes ft dt).drop 4 = lenBytes dt.length ++ (ft.flatten ++ dt.flatten) := by
    unfold tableBytes
    rw [List.drop_left' (length_lenBytes _)]
  have d2 : (tableBytes ft dt).drop 8 = ft.flatten ++ dt.flatten := by
    have e : (tableBytes ft dt).drop 8 = ((tableBytes ft dt).drop 4).drop 4 := by rw [List.drop_drop]
    rw [e, d1, List.drop_left' (length_lenBytes _)]
  have c2 : readCount ((tableBytes ft dt).drop 4) = (some dt.length, true) := by
    unfold readCount
    rw [if_pos (by rw [List.length_drop, length_tableBytes hf hd]; omega), d1, List.take_left' (length_lenBytes _),
      lenOf_lenBytes nd]
  have r1 : fread w ft.length ((tableBytes ft dt).drop 8) = ft := by
    rw [d2]
    exact fread_front hf _
  have r2 : fread w dt.length ((tableBytes ft dt).drop (8 + w * ft.length)) = dt := by
    rw [← List.drop_drop, d2, List.drop_left' (length_flatten hf)]
    have := fread_front hd []
    rwa [List.append_nil] at this
  have hs : readTables w (tableBytes ft dt) =
      ⟨some ft.length, some dt.length, filled ft.length ft, filled dt.length dt⟩ := by
    unfold readTables
    simp only [c1, c2, r1, r2]
    rw [if_neg (by simp)]
  rw [List.mem_cons, List.mem_singleton] at hx
  unfold ifabcMem dabcMem
  rcases hx with rfl | rfl
  · simp only [loopReads_full, Out.bind, and_self]
  · simp only [hs, loopReads_filled le_rfl, if_true, Out.bind, and_self]

/-- **C133.** What the user gets for three colours from a complete cache: the traces of C21. -/
theorem C133_three {w : ℕ} {ft dt : List Rec} (hf : ∀ r ∈ ft, r.length = w) (hd : ∀ r ∈ dt, r.length = w)
    {dec : Rec → Struc} (ef : ft.map dec = fTable3) (ed : dt.map dec = dTable3) (ft' dt' : List Rec) (canWrite : Bool)
    (A B C : Arr ℂ) (hA : (toM 3 A).trace = 0) (hB : (toM 3 B).trace = 0) (hC : (toM 3 C).trace = 0) :
    ∃ s, compute_fs_and_ds w ft' dt' canWrite (some (tableBytes ft dt)) = .ok (s, some (tableBytes ft dt)) ∧
      ifabcMem dec 3 s A B C = .ok (2 * ((toM 3 A * toM 3 B - toM 3 B * toM 3 A) * toM 3 C).trace) ∧
      dabcMem dec 3 s A B C = .ok (2 * ((toM 3 A * toM 3 B + toM 3 B * toM 3 A) * toM 3 C).trace) := by
  have lf : ft.length = 54 := by
    have := congrArg List.length ef
    rwa [List.length_map] at this
  have ld : dt.length = 58 := by
    have := congrArg List.length ed
    rwa [List.length_map] at this
  obtain ⟨s, s', _, h2, h3⟩ := C133_cached hf hd (by omega) (by omega) ft' dt' canWrite
  refine ⟨s', h2, ?_⟩
  have := h3 dec 3 A B C s' (by simp)
  rw [ef, ed] at this
  have e1 := C21_three_f A B C hA hB hC
  have e2 := C21_three_d A B C hA hB hC
  simp only [ifabc_ABC, fTable, dabc_ABC, dTable, if_true, Option.map_some, Option.some.injEq] at e1 e2
  rw [e1, e2] at this
  exact this

/-- **C133.** After a stop at any moment but before the first byte reached the file, no later run gets a number for the
antisymmetric contraction that differs from the one with the computed table: it gets that one, or behaviour is undefined.
Missing: the stop with an empty file, see `C133_fails`, and undefined behaviour. -/
theorem C133_crash_partial {w : ℕ} (hw : 0 < w) {ft dt : List Rec} (hf : ∀ r ∈ ft, r.length = w)
    (hd : ∀ r ∈ dt, r.length = w) (nf : ft.length < 2 ^ 32) (nd : dt.length < 2 ^ 32) (f0 : ft ≠ []) (d0 : dt ≠ [])
    {b : List (BitVec 8)} (hb : some b ∈ lieCrashFiles ft dt) (hne : b ≠ []) (ft' dt' : List Rec) (canWrite : Bool) :
    ∃ s, compute_fs_and_ds w ft' dt' canWrite (some b) = .ok (s, some b) ∧
      ∀ (dec : Rec → Struc) (NC : ℕ) (A B C : Arr ℂ) (v : ℂ), ifabcMem dec NC s A B C = .ok v →
        v = fLoop (ft.map dec) (lie_data NC A) (lie_data NC B) (lie_data NC C) 0 := by
  obtain h | ⟨k, h⟩ := hb
  · cases h
  · obtain rfl := Option.some.inj h
    refine ⟨_, rfl, fun dec NC A B C v hv => ?_⟩
    have := (C133_torn hw hf hd nf nd f0 d0 k).1
    unfold ifabcMem at hv
    rw [this] at hv
    rw [if_neg (by rintro rfl; simp at hne)] at hv
    split_ifs at hv with h1
    · cases hv
    · simp only [Out.bind, Out.ok.injEq] at hv
      exact hv.symm

/-- **C133.** The claim is false: a run that stops after creating the file and before any of it is written leaves an empty
file, and every later run gets zero for every contraction, without an error; for three colours there are matrices whose
contraction is not zero. -/
theorem C133_fails (w : ℕ) (ft dt ft' dt' : List Rec) (canWrite : Bool) (dec : Rec → Struc) :
    some [] ∈ lieCrashFiles ft dt ∧
    (∃ s, compute_fs_and_ds w ft' dt' canWrite (some []) = .ok (s, some []) ∧
      ∀ (NC : ℕ) (A B C : Arr ℂ), ifabcMem dec NC s A B C = .ok 0 ∧ dabcMem dec NC s A B C = .ok 0) ∧
    ∃ A B C, ∃ v, ifabc_ABC 3 A B C = some v ∧ v ≠ 0 := by
  refine ⟨Or.inr ⟨0, rfl⟩, ⟨_, rfl, fun NC A B C => ⟨rfl, rfl⟩⟩, ?_⟩
  refine ⟨arr [0, 1, 0, 1, 0, 0, 0, 0, 0], arr [0, -I, 0, I, 0, 0, 0, 0, 0], arr [1, 0, 0, 0, -1, 0, 0, 0, 0], _,
    C21_three_f _ _ _ ?_ ?_ ?_, ?_⟩
  · simp [Matrix.trace, Fin.sum_univ_three, toM, arr]
  · simp [Matrix.trace, Fin.sum_univ_three, toM, arr]
  · simp [Matrix.trace, Fin.sum_univ_three, toM, arr]
  · simp only [Matrix.trace, Fin.sum_univ_three, Matrix.diag_apply, Matrix.mul_apply, Matrix.sub_apply, toM_apply, arr]
    intro h
    have := congrArg Complex.im h
    norm_num at this

/-- **C133.** No later run repairs the file. -/
theorem C133_stuck (w : ℕ) (ft dt : List Rec) (canWrite : Bool) (b : List (BitVec 8)) :
    ∃ s, compute_fs_and_ds w ft dt canWrite (some b) = .ok (s, some b) := ⟨_, rfl⟩

/-- **C133.** Where the file cannot be created the tables are written to a null stream. -/
theorem C133_dir_fails (w : ℕ) (ft dt : List Rec) : compute_fs_and_ds w ft dt false none = .ub := rfl

/-- Records for the three colour tables: one byte with the position. -/
example : ∃ (ft dt : List Rec) (dec : Rec → Struc), (∀ r ∈ ft, r.length = 1) ∧ (∀ r ∈ dt, r.length = 1) ∧
    ft.map dec = fTable3 ∧ dt.map dec = dTable3 := by
  refine ⟨(List.range 54).map fun i => [BitVec.ofNat 8 i], (List.range 58).map fun i => [BitVec.ofNat 8 (100 + i)],
    fun r => let n := (r.headD 0).toNat; if n < 100 then fTable3.getD n ⟨0, 0, 0, 0⟩ else dTable3.getD (n - 100) ⟨0, 0, 0, 0⟩,
    ?_, ?_, ?_, ?_⟩
  · simp
  · simp
  · simp [List.range, List.range.loop, fTable3]
  · simp [List.range, List.range.loop, dTable3]

end GLU.Cuts
