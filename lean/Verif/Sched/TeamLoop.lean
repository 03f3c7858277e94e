import Verif.Sched.TeamSpec
import Verif.Sched.TeamLemmas
import Mathlib.Data.List.OfFn
import Mathlib.Data.List.FinRange
import Mathlib.Tactic.Common

/-!
# The loops of the team
-/

namespace GLU.Sched.Team

variable {V : Type} [Add V] [Zero V] {n : ℕ}

/-- Entries of different threads or columns are different. -/
theorem entry_inj {C c c' t t' : ℕ} (hc : c < C) (hc' : c' < C) (h : c + C * t = c' + C * t') : c = c' ∧ t = t' := by
  have h1 : (c + C * t) % C = c := by rw [Nat.add_mul_mod_self_left, Nat.mod_eq_of_lt hc]
  have h2 : (c' + C * t') % C = c' := by rw [Nat.add_mul_mod_self_left, Nat.mod_eq_of_lt hc']
  have h3 : c = c' := by rw [← h1, ← h2, h]
  subst h3
  have h4 : C * t = C * t' := by omega
  exact ⟨rfl, Nat.eq_of_mul_eq_mul_left (by omega) h4⟩

/-- The state at a barrier. -/
structure At (A : Loop n V) (m : ℕ → V) (f : Fin n → Vars V × List (Act V)) (k p : ℕ) : Prop where
  vars : ∀ i, (f i).1 = ⟨k, p, match p with | 0 => [] | q + 1 => (pass A k q).1⟩
  acts : match p with
    | 0 => ∀ i, (f i).2 = clear A i
    | q + 1 => ∃ rd ad, A.part k q (pass A k q).1 = some (rd, ad) ∧
        (∀ i, (f i).2 = collect A rd ++ contribute A k q i ad) ∧
        ∀ c < A.CLINE, ∀ t : Fin n, m (c + A.CLINE * t) = (pass A k q).2 c t
  past : ∀ k' < k, ∃ q, A.part k' q (pass A k' q).1 = none ∧ A.again k' (pass A k' q).1 = true

omit [Add V] in
theorem mem_clear {A : Loop n V} {i : Fin n} {a : Act V} (h : a ∈ clear A i) : ∃ l ∈ A.share i, a = .set l 0 := by
  obtain ⟨l, hl, e⟩ := List.mem_map.1 h
  exact ⟨l, hl, e.symm⟩

omit [Add V] [Zero V] in
theorem mem_collect {A : Loop n V} {rd : List ℕ} {a : Act V} (h : a ∈ collect A rd) :
    ∃ c ∈ rd, ∃ t < n, a = .read (c + A.CLINE * t) := by
  obtain ⟨c, hc, h⟩ := List.mem_flatMap.1 h
  obtain ⟨t, ht, e⟩ := List.mem_map.1 h
  exact ⟨c, hc, t, List.mem_range.1 ht, e.symm⟩

omit [Add V] [Zero V] in
theorem mem_contribute {A : Loop n V} {k p : ℕ} {i : Fin n} {ad : List ℕ} {a : Act V}
    (h : a ∈ contribute A k p i ad) : ∃ c ∈ ad, ∃ v ∈ A.contrib k p i c, a = .add (c + A.CLINE * i) v := by
  obtain ⟨c, hc, h⟩ := List.mem_flatMap.1 h
  obtain ⟨v, hv, e⟩ := List.mem_map.1 h
  exact ⟨c, hc, v, hv, e.symm⟩

omit [Add V] [Zero V] in
theorem writes_part {A : Loop n V} {k p l : ℕ} {i : Fin n} {rd ad : List ℕ}
    (h : WritesTo (collect A rd ++ contribute A k p i ad) l) : ∃ c ∈ ad, l = c + A.CLINE * i := by
  obtain ⟨a, ha, hw, hl⟩ := h
  rcases List.mem_append.1 ha with ha | ha
  · obtain ⟨c, -, t, -, rfl⟩ := mem_collect ha
    exact absurd hw (by simp [Act.writes])
  · obtain ⟨c, hc, v, -, rfl⟩ := mem_contribute ha
    exact ⟨c, hc, hl.symm⟩

omit [Add V] [Zero V] in
theorem touches_part {A : Loop n V} {k p l : ℕ} {i : Fin n} {rd ad : List ℕ}
    (h : Touches (collect A rd ++ contribute A k p i ad) l) :
    (∃ c ∈ rd, ∃ t < n, l = c + A.CLINE * t) ∨ ∃ c ∈ ad, l = c + A.CLINE * i := by
  obtain ⟨a, ha, hl⟩ := h
  rcases List.mem_append.1 ha with ha | ha
  · obtain ⟨c, hc, t, ht, rfl⟩ := mem_collect ha
    exact .inl ⟨c, hc, t, ht, hl.symm⟩
  · obtain ⟨c, hc, v, -, rfl⟩ := mem_contribute ha
    exact .inr ⟨c, hc, hl.symm⟩

/-- No race in a part. -/
theorem noRace_part {A : Loop n V} (hA : A.Sound) {k p : ℕ} {seen : List V} {rd ad : List ℕ}
    (h : A.part k p seen = some (rd, ad)) : NoRace fun i => collect A rd ++ contribute A k p i ad := by
  intro i j hij l hw ht
  obtain ⟨c, hc, rfl⟩ := writes_part hw
  have w := fun c h' => hA.width k p seen rd ad h c h'
  rcases touches_part ht with ⟨c', hc', t, -, e⟩ | ⟨c', hc', e⟩
  · obtain ⟨rfl, -⟩ := entry_inj (w _ (.inr hc)) (w _ (.inl hc')) e
    exact hA.apart k p seen rd ad h _ hc' hc
  · obtain ⟨-, e⟩ := entry_inj (w _ (.inr hc)) (w _ (.inr hc')) e
    exact hij (Fin.ext e.symm)

omit [Add V] in
/-- Clearing by several threads is compatible. -/
theorem compatible_clear (A : Loop n V) : Compatible fun i => clear A i := by
  intro i j _ l _ _
  have h : ∀ i, Constant (0 : V) l (clear A i) := fun i =>
    ⟨fun a ha hl => by obtain ⟨k, -, rfl⟩ := mem_clear ha; rw [← hl]; exact .inl rfl,
      fun q r e => by
        have : Act.read l ∈ clear A i := by rw [e]; simp
        obtain ⟨k, -, e⟩ := mem_clear this
        exact absurd e (by simp)⟩
  exact ⟨0, h i, h j⟩

omit [Zero V] in
theorem aloneLog_read (m : ℕ → V) (log : List V) (ls : List ℕ) :
    aloneLog m log (ls.map fun l => .read l) = log ++ ls.map m := by
  induction ls generalizing log with
  | nil => simp [aloneLog]
  | cons l r ih => simp [aloneLog, Act.exec, Act.note, ih]

omit [Add V] [Zero V] in
theorem collect_eq (A : Loop n V) (rd : List ℕ) :
    collect A rd = (rd.flatMap fun c => (List.range n).map fun t => c + A.CLINE * t).map fun l => .read l := by
  simp [collect, List.map_flatMap, Function.comp_def]

omit [Zero V] in
theorem alone_collect (m : ℕ → V) (A : Loop n V) (rd : List ℕ) : alone m (collect A rd) = m := by
  funext l
  refine alone_other _ _ _ ?_
  rintro ⟨a, ha, hw, -⟩
  obtain ⟨c, -, t, -, rfl⟩ := mem_collect ha
  exact absurd hw (by simp [Act.writes])

omit [Zero V] in
theorem aloneLog_add (m : ℕ → V) (log : List V) (p : List (Act V)) (h : ∀ a ∈ p, ∀ l, a ≠ .read l) :
    aloneLog m log p = log := by
  induction p generalizing m with
  | nil => rfl
  | cons a r ih =>
    have h1 : a.note m log = log := by
      cases a with
      | read l => exact absurd rfl (h _ List.mem_cons_self l)
      | _ => rfl
    show aloneLog _ (a.note m log) r = log
    rw [h1]
    exact ih _ fun b hb => h b (List.mem_cons_of_mem _ hb)

omit [Zero V] in
/-- What is read in a part. -/
theorem log_part (m : ℕ → V) (A : Loop n V) (k p : ℕ) (i : Fin n) (rd ad : List ℕ) :
    aloneLog m [] (collect A rd ++ contribute A k p i ad) =
      rd.flatMap fun c => List.ofFn fun t : Fin n => m (c + A.CLINE * t) := by
  rw [aloneLog_append, aloneLog_add]
  · rw [collect_eq]
    refine (aloneLog_read m [] _).trans ?_
    rw [List.nil_append, List.map_flatMap]
    congr 1
    funext c
    rw [List.map_map]
    refine List.ext_getElem (by simp) fun q h1 h2 => by simp
  · intro a ha l
    obtain ⟨c, -, v, -, rfl⟩ := mem_contribute ha
    simp

omit [Zero V] in
theorem alone_adds (m : ℕ → V) (l : ℕ) (vs : List V) :
    alone m (vs.map fun v => .add l v) l = vs.foldl (· + ·) (m l) := by
  induction vs generalizing m with
  | nil => rfl
  | cons v r ih =>
    refine (ih (Act.exec (.add l v) m)).trans ?_
    simp [Act.exec]

omit [Zero V] in
/-- What a thread leaves in the entry of one of its columns. -/
theorem alone_contribute (m : ℕ → V) (A : Loop n V) (k p : ℕ) (i : Fin n) (ad : List ℕ) (hn : ad.Nodup)
    (hw : ∀ c ∈ ad, c < A.CLINE) (c : ℕ) (hc : c < A.CLINE) :
    alone m (contribute A k p i ad) (c + A.CLINE * i) =
      if c ∈ ad then (A.contrib k p i c).foldl (· + ·) (m (c + A.CLINE * i)) else m (c + A.CLINE * i) := by
  induction ad generalizing m with
  | nil => simp [contribute, alone]
  | cons d r ih =>
    have e : contribute A k p i (d :: r) =
        ((A.contrib k p i d).map fun v => .add (d + A.CLINE * i) v) ++ contribute A k p i r := by
      simp [contribute]
    rw [e, alone_append, ih _ (List.nodup_cons.1 hn).2 fun c hc => hw c (List.mem_cons_of_mem _ hc)]
    by_cases hcd : c = d
    · subst hcd
      have : c ∉ r := (List.nodup_cons.1 hn).1
      simp [this, alone_adds]
    · have : alone m ((A.contrib k p i d).map fun v => .add (d + A.CLINE * i) v) (c + A.CLINE * i) =
          m (c + A.CLINE * i) := by
        refine alone_other _ _ _ ?_
        rintro ⟨a, ha, -, hl⟩
        obtain ⟨v, -, rfl⟩ := List.mem_map.1 ha
        have hd : d < A.CLINE := hw d List.mem_cons_self
        exact hcd (entry_inj hd hc hl).1.symm
      simp [this, hcd]

/-- What a thread has read when it comes to the barrier. -/
theorem at_log {A : Loop n V} (hA : A.Sound) {m : ℕ → V} {f : Fin n → Vars V × List (Act V)} {k p : ℕ}
    (h : At A m f k p) (i : Fin n) : (f i).1.seen ++ aloneLog m [] (f i).2 = (pass A k p).1 := by
  cases p with
  | zero =>
    have ha := h.acts
    simp only at ha
    rw [h.vars i, ha i, aloneLog_add]
    · rfl
    · intro a ha l
      obtain ⟨k, -, rfl⟩ := mem_clear ha
      simp
  | succ q =>
    obtain ⟨rd, ad, hp, hacts, hm⟩ := h.acts
    have width := fun c h' => hA.width k q _ rd ad hp c h'
    rw [h.vars i, hacts i, log_part]
    simp only [pass, hp]
    refine congrArg ((pass A k q).1 ++ ·) ?_
    refine List.flatMap_congr fun c hc => ?_
    refine congrArg List.ofFn ?_
    funext t
    exact hm c (width c (.inl hc)) t

/-- From barrier to barrier. -/
theorem at_next {A : Loop n V} (hA : A.Sound) {m : ℕ → V} {f : Fin n → Vars V × List (Act V)} {k p : ℕ}
    (h : At A m f k p) (c : Conf n V) (hl : ∀ i, c.log i = aloneLog m [] (f i).2)
    (hq : ∀ l, (∀ i, ¬ WritesTo (f i).2 l) → c.mem l = m l)
    (hw : ∀ l i, WritesTo (f i).2 l → c.mem l = alone m (f i).2 l) :
    (∀ i, (f i).1.seen ++ c.log i = (pass A k p).1) ∧
    (∀ d < A.CLINE, ∀ t : Fin n, c.mem (d + A.CLINE * t) = (pass A k p).2 d t) := by
  classical
  cases p with
  | zero =>
    have ha := h.acts
    simp only at ha
    constructor
    · intro i
      rw [h.vars i, hl i, ha i, aloneLog_add]
      · rfl
      · intro a ha l
        obtain ⟨k, -, rfl⟩ := mem_clear ha
        simp
    · intro d hd t
      obtain ⟨i, hi⟩ := hA.cleared d hd t
      have w : WritesTo (f i).2 (d + A.CLINE * t) := by
        rw [ha i]
        exact ⟨.set _ 0, List.mem_map.2 ⟨_, hi, rfl⟩, trivial, rfl⟩
      rw [hw _ i w]
      refine alone_constant m _ _ 0 ?_ w
      intro a ha' hal
      rw [ha i] at ha'
      obtain ⟨l, -, rfl⟩ := mem_clear ha'
      rw [← hal]; exact .inl rfl
  | succ q =>
    obtain ⟨rd, ad, hp, hacts, hm⟩ := h.acts
    have width := fun c h' => hA.width k q _ rd ad hp c h'
    have e : pass A k (q + 1) = ((pass A k q).1 ++ rd.flatMap fun c => List.ofFn fun t => (pass A k q).2 c t,
        fun c t => if c ∈ ad then (A.contrib k q t c).foldl (· + ·) ((pass A k q).2 c t) else (pass A k q).2 c t) := by
      simp only [pass, hp]
    constructor
    · intro i
      rw [h.vars i, hl i, hacts i, log_part, e]
      refine congrArg ((pass A k q).1 ++ ·) ?_
      refine List.flatMap_congr fun c hc => ?_
      refine congrArg List.ofFn ?_
      funext t
      exact hm c (width c (.inl hc)) t
    · intro d hd t
      rw [e]
      show _ = if d ∈ ad then _ else _
      have key : alone m (f t).2 (d + A.CLINE * t) =
          if d ∈ ad then (A.contrib k q t d).foldl (· + ·) ((pass A k q).2 d t) else (pass A k q).2 d t := by
        rw [hacts t, alone_append, alone_collect,
          alone_contribute m A k q t ad (hA.once k q _ rd ad hp) (fun c hc => width c (.inr hc)) d hd, hm d hd t]
      by_cases w : WritesTo (f t).2 (d + A.CLINE * t)
      · rw [hw _ t w, key]
      · rw [hq _ ?_, ← key, alone_other _ _ _ w]
        intro i hi
        by_cases hit : i = t
        · subst hit; exact w hi
        · rw [hacts i] at hi
          obtain ⟨c', hc', e'⟩ := writes_part hi
          exact hit (Fin.ext (entry_inj hd (width c' (.inr hc')) e').2.symm)

/-- Every state any schedule can come to. -/
theorem reach_loop {A : Loop n V} (hA : A.Sound) (hpos : 0 < n) {m : ℕ → V} {s : State n (Vars V) V}
    (hs : Relation.ReflTransGen (TStep A.code) (A.code.init m) s) :
    ∃ m' f k p, At A m' f k p ∧ s.st = (fun i => (f i).1) ∧
      Relation.ReflTransGen Step ⟨m', fun _ => [], fun i => (f i).2⟩ s.conf := by
  have := reach (C := A.code) (m := m) hpos (fun m f => ∃ k p, At A m f k p)
    ⟨0, 0, fun i => rfl, fun i => rfl, fun k' hk' => absurd hk' (by omega)⟩
    (fun m f ⟨k, p, h⟩ => by
      cases p with
      | zero =>
        have := h.acts
        simp only at this
        have e : (fun i => (f i).2) = fun i => clear A i := by funext i; exact this i
        rw [e]; exact compatible_clear A
      | succ q =>
        obtain ⟨rd, ad, hp, hacts, -⟩ := h.acts
        have e : (fun i => (f i).2) = fun i => collect A rd ++ contribute A k q i ad := by funext i; exact hacts i
        rw [e]; exact (noRace_part hA hp).compatible)
    (fun m f ⟨k, p, h⟩ c hl hq hw => by
      obtain ⟨h1, h2⟩ := at_next hA h c hl hq hw
      have hit : ∀ i, (f i).1.iter = k := fun i => by rw [h.vars i]
      have hpt : ∀ i, (f i).1.part = p := fun i => by rw [h.vars i]
      cases hp : A.part k p (pass A k p).1 with
      | some pr =>
        obtain ⟨rd, ad⟩ := pr
        right
        refine ⟨fun i => (⟨k, p + 1, (pass A k p).1⟩, collect A rd ++ contribute A k p i ad), ?_, k, p + 1, ?_⟩
        · intro i
          simp only [Loop.code, h1 i, hit i, hpt i, hp]
        · exact ⟨fun i => rfl, ⟨rd, ad, hp, fun i => rfl, h2⟩, h.past⟩
      | none =>
        cases ha : A.again k (pass A k p).1 with
        | false =>
          left
          intro i
          simp [Loop.code, h1 i, hit i, hpt i, hp, ha]
        | true =>
          right
          refine ⟨fun i => (⟨k + 1, 0, []⟩, clear A i), ?_, k + 1, 0, ?_⟩
          · intro i
            simp [Loop.code, h1 i, hit i, hpt i, hp, ha]
          · refine ⟨fun i => rfl, fun i => rfl, fun k' hk' => ?_⟩
            rcases Nat.lt_succ_iff_lt_or_eq.1 hk' with hk' | rfl
            · exact h.past k' hk'
            · exact ⟨p, hp, ha⟩) hs
  obtain ⟨m', f, ⟨k, p, h⟩, h1, h2⟩ := this
  exact ⟨m', f, k, p, h, h1, h2⟩

end GLU.Sched.Team
