import Verif.Run.FileModel
import Verif.IO.HdrWriteProps

/-!
# Saved names (C57), existing files (C58) and the exit status (C62)
-/

namespace GLU.Run
open GLU.IO

theorem takeWhile_all {α : Type} (f : α → Bool) (l : List α) (h : ∀ x ∈ l, f x = true) : l.takeWhile f = l := by
  induction l with
  | nil => rfl
  | cons a l ih =>
    rw [List.takeWhile_cons, if_pos (h a (List.mem_cons_self ..)),
      ih fun x hx => h x (List.mem_cons_of_mem _ hx)]

theorem stem_tail (base rest : Str) (h0 : base ≠ []) (h : '.' ∉ base) : stem (base ++ '.' :: rest) = some base := by
  obtain ⟨c, l, rfl⟩ := List.exists_cons_of_ne_nil h0
  have hc : c ≠ '.' := fun e => h (e ▸ List.mem_cons_self ..)
  unfold stem
  rw [List.cons_append, List.dropWhile_cons, if_neg (by simpa using hc)]
  dsimp only
  rw [← List.cons_append, List.takeWhile_append_of_pos (by
    intro x hx
    simp only [decide_eq_true_eq]
    exact fun e => h (e ▸ hx))]
  simp

theorem stem_plain (name : Str) (h0 : name ≠ []) (h : '.' ∉ name) : stem name = some name := by
  obtain ⟨c, l, rfl⟩ := List.exists_cons_of_ne_nil h0
  have hc : c ≠ '.' := fun e => h (e ▸ List.mem_cons_self ..)
  unfold stem
  rw [List.dropWhile_cons, if_neg (by simpa using hc)]
  dsimp only
  rw [takeWhile_all]
  intro x hx
  simp only [decide_eq_true_eq]
  exact fun e => h (e ▸ hx)

theorem decimal_short (n k : ℕ) (hk : 0 < k) : (decimal n).length ≤ k ↔ n < 10 ^ k := by
  unfold decimal
  split
  · rename_i h
    subst h
    simp only [List.length_cons, List.length_nil]
    constructor
    · intro _; positivity
    · intro _; omega
  · rw [List.length_map, List.length_reverse, Nat.digits_length_le_iff (by norm_num)]

/-- **C57.** The two names fit into the buffer exactly if the trajectory number has at most seven digits; with more
the buffer overflows. The rest of the name is the part of the requested name before its first dot. -/
theorem C57_buffer (name pch : Str) (i : ℕ) (h : stem name = some pch) :
    saveNames name i =
      if i < 10 ^ 7 then .ok (pch ++ ['.'] ++ decimal i, pch ++ ['.'] ++ decimal i ++ ['.', 'r', 'a', 'n', 'd'])
      else .ub := by
  have hd := decimal_short i 7 (by norm_num)
  unfold saveNames
  rw [h]
  dsimp only
  unfold sprintf nameBuffer configName randName
  by_cases h7 : i < 10 ^ 7
  · have := hd.2 h7
    rw [if_pos h7, if_pos (by simp only [List.length_append, List.length_cons, List.length_nil]; omega),
      if_pos (by simp only [List.length_append, List.length_cons, List.length_nil]; omega)]
    rfl
  · have hn : ¬ (decimal i).length ≤ 7 := fun hh => h7 (hd.1 hh)
    rw [if_neg h7]
    split
    · rw [Out.bind, if_neg (by simp only [List.length_append, List.length_cons, List.length_nil]; omega)]
      rfl
    · rfl

/-- **C57.** A requested name without dots, or one that differs from such a name by a final dot and number as the
saved files do, gives the files `name.i` and `name.i.rand`. -/
theorem C57_partial (base : Str) (h0 : base ≠ []) (h : '.' ∉ base) (i : ℕ) (hi : i < 10 ^ 7) (k : ℕ) :
    saveNames base i = .ok (base ++ ['.'] ++ decimal i, base ++ ['.'] ++ decimal i ++ ['.', 'r', 'a', 'n', 'd']) ∧
    saveNames (base ++ '.' :: decimal k) i =
      .ok (base ++ ['.'] ++ decimal i, base ++ ['.'] ++ decimal i ++ ['.', 'r', 'a', 'n', 'd']) := by
  rw [C57_buffer _ _ i (stem_plain base h0 h), C57_buffer _ _ i (stem_tail base _ h0 h), if_pos hi]
  exact ⟨rfl, rfl⟩

/-- **C57.** Different trajectory numbers go to different files. -/
theorem C57_distinct (name : Str) (i j : ℕ) (x y : Str × Str) (hi : saveNames name i = .ok x)
    (hj : saveNames name j = .ok y) (h : x.1 = y.1 ∨ x.2 = y.2) : i = j := by
  cases hs : stem name with
  | none => unfold saveNames at hi; rw [hs] at hi; simp at hi
  | some pch =>
    rw [C57_buffer _ _ _ hs] at hi hj
    split at hi
    · split at hj
      · obtain rfl := Out.ok.inj hi
        obtain rfl := Out.ok.inj hj
        rcases h with h | h
        · exact decimal_injective (List.append_cancel_left h)
        · exact decimal_injective (List.append_cancel_left (List.append_cancel_right h))
      · simp at hj
    · simp at hi

/-- **C57.** Everything after the first dot is lost: two runs whose names differ only there write the same files. -/
theorem C57_dots_fails (base r1 r2 : Str) (h0 : base ≠ []) (h : '.' ∉ base) (i : ℕ) :
    saveNames (base ++ '.' :: r1) i = saveNames (base ++ '.' :: r2) i := by
  rw [C57_buffer _ _ i (stem_tail base r1 h0 h), C57_buffer _ _ i (stem_tail base r2 h0 h)]

/-- **C57.** Leading dots are lost: a path in the current directory becomes one in the root directory. -/
theorem C57_relative_fails : stem (chars "./conf") = some (chars "/conf") ∧
    stem (chars "../run/conf.5") = some (chars "/run/conf") ∧
    stem (chars "run/b6.0/conf") = some (chars "run/b6") := by decide

/-- **C57.** A name that consists of dots is undefined behaviour, whatever the trajectory. -/
theorem C57_only_dots (n i : ℕ) : saveNames (List.replicate n '.') i = .ub := by
  have : stem (List.replicate n '.') = none := by
    unfold stem
    have : (List.replicate n '.').dropWhile (· = '.') = [] := by
      induction n with
      | zero => rfl
      | succ n ih => rw [List.replicate_succ, List.dropWhile_cons, if_pos (by simp), ih]
    rw [this]
  unfold saveNames
  rw [this]

/-- A name and trajectory number that meet the hypotheses, and the saved names. -/
example : saveNames (chars "conf.12") 345 = .ok (chars "conf.345", chars "conf.345.rand") := by
  have := (C57_partial (chars "conf") (by decide) (by decide) 345 (by norm_num) 12).2
  have e1 : decimal 12 = chars "12" := by simp [decimal, Nat.digitChar]
  have e2 : decimal 345 = chars "345" := by simp [decimal, Nat.digitChar]
  rw [e1, e2] at this
  exact this

theorem append_other (fs : FS) (name n : Str) (b : List (BitVec 8)) (h : n ≠ name) :
    (fs.append name b).file n = fs.file n := if_neg h

theorem fopenW_other (fs fs' : FS) (name n : Str) (h : n ≠ name) (hf : fopenW fs name = some fs') :
    fs'.file n = fs.file n := by
  unfold fopenW at hf
  split at hf
  · split at hf
    · rw [← Option.some.inj hf]; exact Function.update_of_ne h ..
    · simp at hf
  · split at hf
    · rw [← Option.some.inj hf]; exact Function.update_of_ne h ..
    · simp at hf

/-- **C58.** A file that can be read is never changed by writing a configuration to its name, and the failure is
reported. -/
theorem C58_partial (fs : FS) (name : Str) (bytes : List (BitVec 8)) (latOk : Bool) (n : Node)
    (h : fs.file name = some n) (hr : n.readable = true) :
    write_configuration fs name bytes latOk = .ok (fs, false) := by
  unfold write_configuration file_exists
  rw [h]
  dsimp only
  rw [if_pos hr]

/-- **C58.** No file under another name is changed. -/
theorem C58_others (fs fs' : FS) (name : Str) (bytes : List (BitVec 8)) (latOk ok : Bool)
    (h : write_configuration fs name bytes latOk = .ok (fs', ok)) (n : Str) (hn : n ≠ name) :
    fs'.file n = fs.file n := by
  unfold write_configuration at h
  split at h
  · rw [(Prod.mk.inj (Out.ok.inj h)).1]
  · split at h
    · simp at h
    · rename_i fs1 hf
      rw [← (Prod.mk.inj (Out.ok.inj h)).1, append_other _ _ _ _ hn, fopenW_other fs fs1 name n hn hf]

/-- **C58.** A new file holds exactly the bytes written. -/
theorem C58_new (fs : FS) (name : Str) (bytes : List (BitVec 8)) (latOk : Bool) (h : fs.file name = none)
    (hc : fs.creatable name = true) : ∃ fs', write_configuration fs name bytes latOk = .ok (fs', true) ∧
      fs'.file name = some ⟨bytes, true, true⟩ := by
  refine ⟨({ fs with file := Function.update fs.file name (some ⟨[], true, true⟩) } : FS).append name bytes, ?_, ?_⟩
  · unfold write_configuration file_exists fopenW
    rw [h]
    dsimp only
    rw [if_neg (by simp), if_pos hc]
  · unfold FS.append
    dsimp only
    rw [if_pos rfl, Function.update_self]
    rfl

/-- **C58.** A file that may be written but not read is emptied and overwritten. -/
theorem C58_unreadable_fails (fs : FS) (name : Str) (bytes : List (BitVec 8)) (latOk : Bool) (n : Node)
    (h : fs.file name = some n) (hr : n.readable = false) (hw : n.writable = true) :
    ∃ fs', write_configuration fs name bytes latOk = .ok (fs', true) ∧
      fs'.file name = some { n with content := bytes } := by
  refine ⟨({ fs with file := Function.update fs.file name (some { n with content := [] }) } : FS).append name bytes, ?_, ?_⟩
  · unfold write_configuration file_exists fopenW
    rw [h]
    dsimp only
    rw [if_neg (by rw [hr]; simp), if_pos hw]
  · unfold FS.append
    dsimp only
    rw [if_pos rfl, Function.update_self]
    rfl

/-- **C58.** A name under which no file can be made is undefined behaviour. -/
theorem C58_open_fails (fs : FS) (name : Str) (bytes : List (BitVec 8)) (latOk : Bool) (h : fs.file name = none)
    (hc : fs.creatable name = false) : write_configuration fs name bytes latOk = .ub := by
  unfold write_configuration file_exists fopenW
  rw [h]
  dsimp only
  rw [if_neg (by simp), if_neg (by rw [hc]; simp)]

/-- **C58.** Success is reported although writing the lattice failed. -/
theorem C58_status_fails (fs : FS) (name : Str) (bytes : List (BitVec 8)) (h : fs.file name = none)
    (hc : fs.creatable name = true) : ∃ fs', write_configuration fs name bytes false = .ok (fs', true) :=
  let ⟨fs', h, _⟩ := C58_new fs name bytes false h hc; ⟨fs', h⟩

/-- **C62.** A refused input file is reported by the exit status. -/
theorem C62_partial (argc : ℕ) (helpCode usageCode : ℤ) (w : Work) (h : 4 ≤ argc) (ho : argc % 2 = 1) :
    main argc helpCode usageCode none w = .ok (-1) := by
  unfold main
  rw [if_neg (by omega), if_neg (by omega)]

/-- **C62.** The library functions report a configuration that cannot be read, and one that cannot be written. -/
theorem C62_wrapper_partial (m : Mode) (argc : ℕ) (w : Work) :
    (w.read = false → wrapper m argc w = false) ∧
    (argc = 7 → m ≠ .cuts → m ≠ .heatbath → w.write = false → wrapper m argc w = false) := by
  constructor
  · intro h
    unfold wrapper
    rw [h]
    rfl
  · intro h1 h2 h3 h4
    unfold wrapper
    subst h1
    rw [h4]
    cases m <;> simp_all

/-- **C62.** With an accepted input file and a complete command line the exit status is zero, whatever fails. -/
theorem C62_fails (argc : ℕ) (helpCode usageCode : ℤ) (m : Mode) (w : Work) (h : 7 ≤ argc) (ho : argc % 2 = 1) :
    main argc helpCode usageCode (some m) w = .ok 0 := by
  unfold main
  rw [if_neg (by omega), if_neg (by omega)]
  dsimp only
  rw [if_pos]
  cases m <;> simp [argsUsed, argvOk] <;> omega

/-- **C62.** A failure of the processing itself is not even reported by the library functions. -/
theorem C62_processing_fails (m : Mode) (argc : ℕ) : wrapper m argc ⟨true, false, true⟩ = true := by
  cases m <;> simp [wrapper]

/-- **C62.** Without an output name, the usual call to only look at a configuration, `argv` is read past its end. -/
theorem C62_argv_fails (helpCode usageCode : ℤ) (m : Mode) (w : Work) (hm : m ≠ .cuts) (hb : m ≠ .heatbath) :
    main 5 helpCode usageCode (some m) w = .ub := by
  cases m <;> simp_all [main, argsUsed, argvOk]

end GLU.Run
