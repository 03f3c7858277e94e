import Verif.Cuts.Names
import Verif.Cuts.CutProps
import Verif.IO.HdrWriteProps
import Mathlib.Analysis.Real.Pi.Bounds

/-! # C95: different measurements go to different files -/

namespace GLU.Cuts
open GLU.IO

/-- The settings that tell one measurement from another, as far as the mode looks at them. -/
structure SameMeasurement (s t : Settings) : Prop where
  dir : s.dir = t.dir
  dims : s.dims = t.dims
  flow : s.flow = t.flow
  max_mom : s.dir ≠ .configspace → s.max_mom = t.max_mom
  max_t : s.dir = .staticPotential → s.max_t = t.max_t
  type : s.dir ≠ .configspace → s.dir ≠ .nonexceptional → s.type = t.type
  width : s.dir ≠ .configspace → s.dir ≠ .nonexceptional → s.type = .cylinder → s.width = t.width
  angle : s.dir ≠ .configspace → s.dir ≠ .nonexceptional → s.type = .cylinderConical → s.angle = t.angle
  logDef : s.dir ≠ .staticPotential → s.dir ≠ .topologicalSusceptibility → s.logDef = t.logDef

/-- The text of a number contains neither an underscore nor the letter b. -/
def PlainWidth (w : Str) : Prop := '_' ∉ w ∧ 'b' ∉ w

theorem split_at {S : Char → Prop} {a b x y : Str} {s s' : Char} (ha : ∀ c ∈ a, ¬ S c) (hb : ∀ c ∈ b, ¬ S c)
    (hs : S s) (hs' : S s') (h : a ++ s :: x = b ++ s' :: y) : a = b ∧ s = s' ∧ x = y := by
  induction a generalizing b with
  | nil =>
    cases b with
    | nil =>
      simp only [List.nil_append, List.cons.injEq] at h
      exact ⟨rfl, h⟩
    | cons c b =>
      simp only [List.nil_append, List.cons_append, List.cons.injEq] at h
      exact absurd (h.1 ▸ hs) (hb c (by simp))
  | cons c a ih =>
    cases b with
    | nil =>
      simp only [List.nil_append, List.cons_append, List.cons.injEq] at h
      exact absurd (h.1 ▸ hs') (ha c (by simp))
    | cons d b =>
      simp only [List.cons_append, List.cons.injEq] at h
      obtain ⟨h1, h2, h3⟩ := ih (fun c hc => ha c (by simp [hc])) (fun c hc => hb c (by simp [hc])) h.2
      exact ⟨by rw [h.1, h1], h2, h3⟩

/-- Digits. -/
def Digit (c : Char) : Prop := c ∈ chars "0123456789"

theorem decimal_digits (n : ℕ) : ∀ c ∈ decimal n, Digit c := by
  intro c hc
  rw [decimal_eq, List.mem_map] at hc
  obtain ⟨d, hd, rfl⟩ := hc
  have hd := digs_lt 10 n (by norm_num) d hd
  have : ∀ e : Fin 10, Nat.digitChar e ∈ chars "0123456789" := by decide
  exact this ⟨d, hd⟩

theorem dec_split {m n : ℕ} {x y : Str} {s s' : Char} (hs : ¬ Digit s) (hs' : ¬ Digit s')
    (h : decimal m ++ s :: x = decimal n ++ s' :: y) : m = n ∧ s = s' ∧ x = y := by
  obtain ⟨h1, h2⟩ := split_at (S := fun c => ¬ Digit c) (fun c hc => not_not.2 (decimal_digits m c hc))
    (fun c hc => not_not.2 (decimal_digits n c hc)) hs hs' h
  exact ⟨decimal_injective h1, h2⟩

theorem nd_us : ¬ Digit '_' := by unfold Digit; decide
theorem nd_x : ¬ Digit 'x' := by unfold Digit; decide
theorem nd_dot : ¬ Digit '.' := by unfold Digit; decide

theorem dimStr_two (d e : ℕ) (l : List ℕ) (x : Str) :
    dimStr (d :: e :: l) ++ x = decimal d ++ 'x' :: (dimStr (e :: l) ++ x) := by
  rw [dimStr] <;> simp

theorem dim_split {l l' : List ℕ} {x y : Str} (hl : l ≠ []) (hl' : l' ≠ []) (h : dimStr l ++ x = dimStr l' ++ y) :
    l = l' ∧ x = y := by
  induction l generalizing l' with
  | nil => exact absurd rfl hl
  | cons d ds ih =>
    cases l' with
    | nil => exact absurd rfl hl'
    | cons e es =>
      cases ds with
      | nil =>
        cases es with
        | nil =>
          simp only [dimStr, List.append_assoc, List.cons_append, List.nil_append] at h
          obtain ⟨h1, -, h2⟩ := dec_split nd_us nd_us h
          exact ⟨by rw [h1], h2⟩
        | cons f fs =>
          simp only [dimStr, List.append_assoc, List.cons_append, List.nil_append] at h
          obtain ⟨-, h1, -⟩ := dec_split nd_us nd_x h
          exact absurd h1 (by decide)
      | cons g gs =>
        cases es with
        | nil =>
          simp only [dimStr, List.append_assoc, List.cons_append, List.nil_append] at h
          obtain ⟨-, h1, -⟩ := dec_split nd_x nd_us h
          exact absurd h1 (by decide)
        | cons f fs =>
          rw [dimStr_two, dimStr_two] at h
          obtain ⟨h1, -, h2⟩ := dec_split nd_x nd_x h
          obtain ⟨h3, h4⟩ := ih (by simp) (by simp) h2
          exact ⟨by rw [h1, h3], h4⟩

/-- Two modes with the same beginning of the name. -/
theorem tag_split {g : Option ℤ} {m m' : Mode} {x y : Str} (h : modeTag g m ++ '_' :: 'S' :: x = modeTag g m' ++ '_' :: 'S' :: y) :
    modeTag g m = modeTag g m' ∧ x = y := by
  cases g <;> cases m <;> cases m' <;> simp [modeTag] at h ⊢ <;> exact h

/-- The end of the name. -/
def ending (flow : ℕ) : Str := '.' :: (decimal flow ++ chars ".bin")

theorem ending_split {m n : ℕ} {x y : Str} (h : ending m ++ x = ending n ++ y) : m = n ∧ x = y := by
  simp only [ending, List.append_assoc, List.cons_append, List.nil_append, List.cons.injEq, true_and] at h
  obtain ⟨h1, -, h2⟩ := dec_split nd_dot nd_dot h
  simpa [h1] using h2

theorem cut_split_us {s t : Settings} {T T' : CutType} {x y : Str} (hs : PlainWidth s.width) (ht : PlainWidth t.width)
    (h : cutTag s T ++ '_' :: x = cutTag t T' ++ '_' :: y) :
    T = T' ∧ (T = .cylinder → s.width = t.width) ∧ (T = .cylinderConical → s.angle = t.angle) ∧ x = y := by
  cases T <;> cases T' <;> simp [cutTag] at h ⊢
  · exact h
  · exact h
  · obtain ⟨h1, -, h2⟩ := split_at (S := fun c => c = '_') (fun c hc e => hs.1 (e ▸ hc))
      (fun c hc e => ht.1 (e ▸ hc)) rfl rfl h
    exact ⟨h1, h2⟩
  · obtain ⟨h1, -, h2⟩ := dec_split nd_us nd_us h
    exact ⟨h1, h2⟩

theorem no_b {w : Str} (hw : PlainWidth w) (n : ℕ) : ∀ c ∈ w ++ '.' :: (decimal n ++ ['.']), ¬ c = 'b' := by
  intro c hc e
  subst e
  simp only [List.mem_append, List.mem_cons, List.not_mem_nil, or_false] at hc
  rcases hc with h | h | h | h
  · exact hw.2 h
  · exact absurd h (by decide)
  · have := decimal_digits n _ h
    unfold Digit at this
    exact absurd this (by decide)
  · exact absurd h (by decide)

theorem cut_split_dot {s t : Settings} {T T' : CutType} {m n : ℕ} {x y : Str} (hs : PlainWidth s.width)
    (ht : PlainWidth t.width) (h : cutTag s T ++ (ending m ++ x) = cutTag t T' ++ (ending n ++ y)) :
    T = T' ∧ (T = .cylinder → s.width = t.width) ∧ (T = .cylinderConical → s.angle = t.angle) ∧ m = n ∧ x = y := by
  cases T <;> cases T'
  case cylinder.cylinder =>
    simp only [cutTag, List.append_assoc, List.append_cancel_left_eq] at h
    have e : ∀ (w : Str) (k : ℕ) (z : Str), w ++ (ending k ++ z)
        = (w ++ '.' :: (decimal k ++ ['.'])) ++ 'b' :: 'i' :: 'n' :: z := by
      intro w k z; simp [ending]
    rw [e, e] at h
    obtain ⟨h1, -, h2⟩ := split_at (S := fun c => c = 'b') (no_b hs m) (no_b ht n) rfl rfl h
    have h3 := congrArg List.reverse h1
    simp only [List.reverse_append, List.reverse_cons, List.reverse_nil, List.nil_append, List.append_assoc,
      List.cons_append, List.cons.injEq, true_and] at h3
    have hd : ∀ k, ∀ c ∈ (decimal k).reverse, ¬ c = '.' := by
      intro k c hc e
      subst e
      exact nd_dot (decimal_digits k _ (List.mem_reverse.1 hc))
    obtain ⟨h4, -, h5⟩ := split_at (S := fun c => c = '.') (hd m) (hd n) rfl rfl h3
    refine ⟨rfl, fun _ => List.reverse_inj.1 h5, nofun, decimal_injective (List.reverse_inj.1 h4), ?_⟩
    simpa using h2
  case cylinderConical.cylinderConical =>
    simp only [cutTag, List.append_assoc, List.append_cancel_left_eq] at h
    obtain ⟨h1, -, h2⟩ := dec_split nd_dot nd_dot h
    obtain ⟨h3, h4⟩ := ending_split (congrArg ('.' :: ·) h2)
    exact ⟨rfl, nofun, fun _ => h1, h3, h4⟩
  case hypercubic.hypercubic =>
    simp only [cutTag, List.append_cancel_left_eq] at h
    obtain ⟨h3, h4⟩ := ending_split h
    exact ⟨rfl, nofun, nofun, h3, h4⟩
  case psq.psq =>
    simp only [cutTag, List.append_cancel_left_eq] at h
    obtain ⟨h3, h4⟩ := ending_split h
    exact ⟨rfl, nofun, nofun, h3, h4⟩
  all_goals simp [cutTag] at h

/-- The text for the definition of the fields. -/
def defTag (l : Bool) : Str := if l then chars "_LOG" else chars "_LIN"

theorem def_split {l l' : Bool} {x y : Str} (h : defTag l ++ x = defTag l' ++ y) : l = l' ∧ x = y := by
  cases l <;> cases l' <;> simp [defTag] at h ⊢ <;> exact h

/-- The text between the cut and the definition of the fields. -/
def midTag (b : Build) (non : Bool) : Str :=
  '_' :: ((if b.sinMom then chars "SINMOM" else chars "PSQMOM") ++
    match b.gracey with
    | none => []
    | some g => if non then if -1 < g ∧ g < 15 then (chars "_PROJ") ++ decimal g.toNat else [] else [])

/-- The name after the dimensions. -/
def tail (b : Build) (s : Settings) : Str :=
  match s.dir with
  | .configspace => (if s.logDef then chars "LOG" else chars "LIN") ++ ending s.flow
  | .staticPotential => decimal s.max_mom ++ '_' :: 'T' :: (decimal s.max_t ++ '_' :: (cutTag s s.type ++ ending s.flow))
  | .topologicalSusceptibility => decimal s.max_mom ++ '_' :: (cutTag s s.type ++ ending s.flow)
  | .nonexceptional => decimal s.max_mom ++ '_' :: (cutTag s .psq ++ (midTag b true ++ (defTag s.logDef ++ ending s.flow)))
  | _ => decimal s.max_mom ++ '_' :: (cutTag s s.type ++ (midTag b false ++ (defTag s.logDef ++ ending s.flow)))

theorem name_eq (b : Build) (w : Str) (s : Settings) :
    output_str_struct b w s = w ++ (modeTag b.gracey s.dir ++ '_' :: 'S' :: 'U' :: (decimal b.NC ++ '_' :: (dimStr s.dims ++ tail b s))) := by
  obtain ⟨dir, dims, type, mm, mt, wd, an, ld, fl⟩ := s
  obtain ⟨NC, sm, gr⟩ := b
  cases dir <;> cases gr <;> simp [output_str_struct, tail, ending, midTag, defTag] <;>
    cases ld <;> cases sm <;> simp <;> split <;> simp

theorem tail_split (b : Build) (s t : Settings) (hs : PlainWidth s.width) (ht : PlainWidth t.width) (hd : s.dir = t.dir)
    (x y : Str) (h : tail b s ++ x = tail b t ++ y) :
    s.flow = t.flow ∧ (s.dir ≠ .configspace → s.max_mom = t.max_mom) ∧ (s.dir = .staticPotential → s.max_t = t.max_t) ∧
    (s.dir ≠ .configspace → s.dir ≠ .nonexceptional → s.type = t.type) ∧
    (s.dir ≠ .configspace → s.dir ≠ .nonexceptional → s.type = .cylinder → s.width = t.width) ∧
    (s.dir ≠ .configspace → s.dir ≠ .nonexceptional → s.type = .cylinderConical → s.angle = t.angle) ∧
    (s.dir ≠ .staticPotential → s.dir ≠ .topologicalSusceptibility → s.logDef = t.logDef) ∧ x = y := by
  have glue : ∀ non : Bool, decimal s.max_mom ++ '_' :: (cutTag s s.type ++ (midTag b non ++ (defTag s.logDef ++ ending s.flow))) ++ x
      = decimal t.max_mom ++ '_' :: (cutTag t t.type ++ (midTag b non ++ (defTag t.logDef ++ ending t.flow))) ++ y →
      s.flow = t.flow ∧ s.max_mom = t.max_mom ∧ s.type = t.type ∧ (s.type = .cylinder → s.width = t.width) ∧
      (s.type = .cylinderConical → s.angle = t.angle) ∧ s.logDef = t.logDef ∧ x = y := by
    intro non h
    simp only [List.append_assoc, List.cons_append] at h
    obtain ⟨h1, -, h2⟩ := dec_split nd_us nd_us h
    simp only [midTag, List.append_assoc, List.cons_append] at h2
    obtain ⟨h3, h4, h5, h6⟩ := cut_split_us hs ht h2
    have h7 := List.append_cancel_left (List.append_cancel_left h6)
    obtain ⟨h8, h9⟩ := def_split h7
    obtain ⟨h10, h11⟩ := ending_split h9
    exact ⟨h10, h1, h3, h4, h5, h8, h11⟩
  cases hdir : s.dir <;> rw [hdir] at hd <;> simp only [tail, hdir, ← hd] at h
  case configspace =>
    have : s.logDef = t.logDef ∧ ending s.flow ++ x = ending t.flow ++ y := by
      cases hl : s.logDef <;> cases hl' : t.logDef <;> simp [hl, hl'] at h ⊢ <;> exact h
    obtain ⟨h1, h2⟩ := ending_split this.2
    simp [h1, h2, this.1]
  case staticPotential =>
    simp only [List.append_assoc, List.cons_append] at h
    obtain ⟨h1, -, h2⟩ := dec_split nd_us nd_us h
    rw [List.cons.injEq] at h2
    obtain ⟨h3, -, h4⟩ := dec_split nd_us nd_us h2.2
    obtain ⟨h5, h6, h7, h8, h9⟩ := cut_split_dot hs ht h4
    exact ⟨h8, fun _ => h1, fun _ => h3, fun _ _ => h5, fun _ _ => h6, fun _ _ => h7, fun h => absurd rfl h, h9⟩
  case topologicalSusceptibility =>
    simp only [List.append_assoc, List.cons_append] at h
    obtain ⟨h1, -, h2⟩ := dec_split nd_us nd_us h
    obtain ⟨h5, h6, h7, h8, h9⟩ := cut_split_dot hs ht h2
    exact ⟨h8, fun _ => h1, nofun, fun _ _ => h5, fun _ _ => h6, fun _ _ => h7, fun _ h => absurd rfl h, h9⟩
  case nonexceptional =>
    simp only [List.append_assoc, List.cons_append] at h
    obtain ⟨h1, -, h2⟩ := dec_split nd_us nd_us h
    simp only [cutTag] at h2
    have h7 := List.append_cancel_left (List.append_cancel_left h2)
    obtain ⟨h8, h9⟩ := def_split h7
    obtain ⟨h10, h11⟩ := ending_split h9
    exact ⟨h10, fun _ => h1, nofun, fun _ h => absurd rfl h, fun _ h => absurd rfl h, fun _ h => absurd rfl h,
      fun _ _ => h8, h11⟩
  all_goals
    obtain ⟨h1, h2, h3, h4, h5, h6, h7⟩ := glue false h
    exact ⟨h1, fun _ => h2, nofun, fun _ _ => h3, fun _ _ => h4, fun _ _ => h5, fun _ _ => h6, h7⟩

theorem tag_dir {g : Option ℤ} {m m' : Mode} {x y : Suffix} (hx : Writes m x) (hy : Writes m' y)
    (h : modeTag g m = modeTag g m') :
    m = m' ∨ (m = .exceptional ∧ m' = .topologicalCorrelator) ∨ (m = .topologicalCorrelator ∧ m' = .exceptional) := by
  cases g <;> cases m <;> cases m' <;> first
    | exact Or.inl rfl
    | exact Or.inr (Or.inl ⟨rfl, rfl⟩)
    | exact Or.inr (Or.inr ⟨rfl, rfl⟩)
    | (exfalso; revert h; simp [modeTag]; done)
    | (exfalso; cases x <;> exact hx)
    | (exfalso; cases y <;> exact hy)

theorem suffix_inj {m : Mode} {x y : Suffix} (hx : Writes m x) (hy : Writes m y) (h : x.text = y.text) : x = y := by
  have key : ∀ a c : ℕ, decimal a ≠ decimal c ++ chars ".tcorr" := by
    intro a c e
    refine nd_dot (decimal_digits a '.' ?_)
    rw [e]; simp
  cases x <;> cases y <;> simp only [Suffix.text, List.append_assoc, List.cons_append, List.nil_append, List.cons.injEq,
    true_and] at h
  case plain.plain => rfl
  case corr.corr => rw [decimal_injective h]
  case corr.corrT => exact absurd h (key _ _)
  case corrT.corr => exact absurd h.symm (key _ _)
  case corrT.corrT => rw [(dec_split nd_dot nd_dot h).1]
  case slab.slab =>
    obtain ⟨h1, -, h2⟩ := dec_split nd_dot nd_dot h
    simp only [List.cons.injEq, true_and] at h2
    rw [h1, decimal_injective h2]
  all_goals exfalso; cases m <;> first | exact hx | exact hy | simp at h

/-- Two files with the same name hold the same measurement: the same mode, dimensions, configuration number, limit on
the momentum, cut and definition of the fields, as far as the mode looks at them. Missing: the width of the cylinder
when it is combined with a cone (`C95_conical`), the smearing parameters, and the number of times of the configuration
space correlators are no part of the name. -/
theorem C95_names_partial (b : Build) (w : Str) (s t : Settings) (x y : Suffix) (hs : PlainWidth s.width)
    (ht : PlainWidth t.width) (hds : s.dims ≠ []) (hdt : t.dims ≠ []) (hx : Writes s.dir x) (hy : Writes t.dir y)
    (h : fileName b w s x = fileName b w t y) : SameMeasurement s t ∧ x = y := by
  rw [fileName, fileName, name_eq, name_eq] at h
  simp only [List.append_assoc, List.cons_append] at h
  obtain ⟨htag, h1⟩ := tag_split (List.append_cancel_left h)
  rw [List.cons.injEq] at h1
  obtain ⟨-, -, h2⟩ := dec_split nd_us nd_us h1.2
  obtain ⟨hdims, h3⟩ := dim_split hds hdt h2
  rcases tag_dir hx hy htag with hd | ⟨hd, hd'⟩ | ⟨hd, hd'⟩
  · obtain ⟨a1, a2, a3, a4, a5, a6, a7, a8⟩ := tail_split b s t hs ht hd _ _ h3
    exact ⟨⟨hd, hdims, a1, a2, a3, a4, a5, a6, a7⟩, suffix_inj hx (hd ▸ hy) a8⟩
  · have e : tail b t = tail b { t with dir := .exceptional } := by simp [tail, hd', cutTag]
    rw [e] at h3
    have a8 := (tail_split b s { t with dir := .exceptional } hs ht hd _ _ h3).2.2.2.2.2.2.2
    rw [hd] at hx
    rw [hd'] at hy
    cases x <;> cases y <;> simp_all [Writes, Suffix.text]
  · have e : tail b s = tail b { s with dir := .exceptional } := by simp [tail, hd, cutTag]
    rw [e] at h3
    have a8 := (tail_split b { s with dir := .exceptional } t hs ht hd'.symm _ _ h3).2.2.2.2.2.2.2
    rw [hd] at hx
    rw [hd'] at hy
    cases x <;> cases y <;> simp_all [Writes, Suffix.text]

/-- With the combined cylinder and cone cut the width is not in the name: two runs with different widths write to the
same file, although the momenta differ. -/
theorem C95_conical (b : Build) (w : Str) (s : Settings) (x : Suffix) (hc : s.type = .cylinderConical) (v : Str) :
    fileName b w { s with width := v } x = fileName b w s x := by
  obtain ⟨dir, dims, type, mm, mt, wd, an, ld, fl⟩ := s
  simp only at hc
  subst hc
  cases dir <;> rfl

/-- The lattice with four sites in each of four directions. -/
def L4444 : Geom.Latt := ⟨4, fun _ => 4⟩

theorem C95_conical_differ (tol : ℝ) (htol : tol ≤ 1) :
    ¬ safe_momenta L4444 4 tol ⟨.cylinderConical, 4, 0, 80⟩ 4 (fun mu => if mu = 0 then 1 else 0) ∧
    safe_momenta L4444 4 tol ⟨.cylinderConical, 4, 2, 80⟩ 4 (fun mu => if mu = 0 then 1 else 0) := by
  set n : ℕ → ℤ := fun mu => if mu = 0 then 1 else 0 with hn
  have hp : compute_p L4444 n 4 = fun mu => if mu = 0 then √2 else 0 := by
    funext mu
    unfold compute_p
    by_cases h0 : mu = 0
    · subst h0
      simp only [hn, L4444, if_true, show (0 : ℕ) < 4 by norm_num]
      rw [show ((1 : ℤ) : ℝ) * (2 * Real.pi / ((4 : ℕ) : ℝ)) * (1 / 2) = Real.pi / 4 by push_cast; ring, Real.sin_pi_div_four]
      ring
    · simp [hn, h0]
  have hq : acc (fun mu => (fun mu => if mu = 0 then √2 else 0) mu * (fun mu => if mu = 0 then √2 else 0) mu) 4 = (2 : ℝ) := by
    simp [acc]
  have hx : ∀ i, acc (fun nu => (get_diagonal i 4 nu : ℝ) * get_diagonal i 4 nu) 4 = 4 := by
    intro i
    have h1 : ∀ nu < 4, ((get_diagonal i 4 nu : ℤ) : ℝ) * get_diagonal i 4 nu = 1 := by
      intro nu hnu
      unfold get_diagonal
      rw [if_pos hnu]
      dsimp only
      rcases Nat.mod_two_eq_zero_or_one ((i - i % 2 ^ nu) / 2 ^ nu) with h | h <;> rw [h] <;> norm_num
    simp only [acc]
    rw [h1 0 (by norm_num), h1 1 (by norm_num), h1 2 (by norm_num), h1 3 (by norm_num)]
    norm_num
  have h4 : √(4 : ℝ) = 2 := by rw [show (4 : ℝ) = 2 ^ 2 by norm_num, Real.sqrt_sq (by norm_num)]
  have h2 : √(2 : ℝ) * √2 = 2 := Real.mul_self_sqrt (by norm_num)
  have h2' : √(2 : ℝ) ≠ 0 := by positivity
  have hth : ∀ i, thetaCJD 4 (fun mu => if mu = 0 then √2 else 0) (get_diagonal i 4) = Real.arccos (get_diagonal i 4 0 / 2) := by
    intro i
    unfold thetaCJD
    rw [hq, hx, h4]
    dsimp only
    congr 1
    simp only [acc]
    simp
    field_simp
  have hsq : ∀ i, ((get_diagonal i 4 0 : ℤ) : ℝ) / 2 * (get_diagonal i 4 0 / 2) = 1 / 4 := by
    intro i
    unfold get_diagonal
    rw [if_pos (by norm_num)]
    dsimp only
    rcases Nat.mod_two_eq_zero_or_one ((i - i % 2 ^ 0) / 2 ^ 0) with h | h <;> rw [h] <;> norm_num
  constructor
  · rintro ⟨-, h⟩
    rw [L4444] at hp
    simp only [L4444, hp] at h
    rcases h with h | ⟨i, -, h, -⟩
    · rw [hq] at h; linarith
    · rw [hth, hq, Real.sin_arccos, pow_two, hsq] at h
      have h1 : 0 < √(1 - 1 / 4 : ℝ) / (1 / √2) := by
        have : (0 : ℝ) < 1 - 1 / 4 := by norm_num
        positivity
      simp only [mul_zero, zero_div] at h
      linarith
  · constructor
    · simp [gen_calc_psq, acc, ratio, L4444, hn]
    · simp only [L4444] at hp ⊢
      rw [hp]
      refine Or.inr ⟨1, by norm_num, ?_⟩
      rw [hth, hq, Real.sin_arccos, pow_two, hsq]
      constructor
      · have h1 : √(1 - 1 / 4 : ℝ) ≤ 1 := Real.sqrt_le_one.2 (by norm_num)
        have h3 : √(2 : ℝ) ≤ 2 := by rw [Real.sqrt_le_left (by norm_num)]; norm_num
        have h5 := Real.pi_gt_three
        have h6 : (0 : ℝ) ≤ √2 := Real.sqrt_nonneg _
        rw [div_div_eq_mul_div, div_one]
        have : √(1 - 1 / 4 : ℝ) * √2 ≤ 1 * 2 := mul_le_mul h1 h3 h6 (by norm_num)
        push_cast
        linarith
      · rw [show ((get_diagonal 1 4 0 : ℤ) : ℝ) / 2 = 1 / 2 by
          rw [show get_diagonal 1 4 0 = 1 by decide]; norm_num, ← Real.cos_pi_div_three,
          Real.arccos_cos (by positivity) (by linarith [Real.pi_pos])]
        have := Real.pi_lt_d2
        norm_num
        linarith

/-- The name of a propagator file. -/
example : fileName ⟨3, true, none⟩ (chars "./") ⟨.gluonProps, [4, 4, 4, 8], .cylinder, 20, 0, chars "1.5", 0, true, 100⟩ .plain
    = chars "./G2F2_SU3_4x4x4x8_20_cutCYL_w1.5_SINMOM_LOG.100.bin" := by
  decide +kernel

/-- Width and configuration number next to each other. -/
example : fileName ⟨3, true, none⟩ (chars "./") ⟨.staticPotential, [4, 4, 4, 8], .cylinder, 20, 6, chars "1.5", 0, true, 100⟩ .plain
    = chars "./STATPOT_SU3_4x4x4x8_20_T6_cutCYL_w1.5.100.bin" := by
  decide +kernel

/-- The correlator of the topological charge is filed under the name of the three-gluon vertex, with `m1` after
it. -/
example : fileName ⟨3, true, none⟩ (chars "./") ⟨.topologicalCorrelator, [4, 4, 4, 8], .psq, 20, 6, [], 0, false, 100⟩ (.corr 1)
    = chars "./MOMgg_SU3_4x4x4x8_20_cutPSQ_SINMOM_LIN.100.binm1" := by
  decide +kernel

example : PlainWidth (chars "1.5") ∧ Writes .staticPotential .plain ∧ Writes .topologicalCorrelator (.corrT 2) := by
  refine ⟨?_, trivial, trivial⟩
  unfold PlainWidth
  decide

end GLU.Cuts
