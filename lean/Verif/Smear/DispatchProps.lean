import Verif.Smear.Dispatch
import Verif.Smear.LocalProps

/-! # Properties of the choice of the smearing routine (C110) -/

namespace GLU.Smear

open GLU.Geom GLU.Sched GLU.Mat GLU.Field
open GLU.Utils (Setup Speed)

variable {M : Type}

/-! ## What is asked for -/

/-- What a user asks for or gets: nothing, a gradient flow, a smearing of links with staples, or a hypercubic smearing; with the
way the link is made and the number of directions whose links change. -/
inductive Job where
  | nothing
  | flow (k : Kind) (adaptive : Bool) (dirs : ℕ)
  | staples (k : Kind) (dirs : ℕ)
  | hypercubes (k : Kind) (dirs : ℕ)
deriving DecidableEq

/-- What the names of the smearing types mean, `docs` and `print_smearinfo` (`SM_wrap.c:108-216`): HYP, HEX and HYL are the
hypercubic versions of APE, STOUT and LOG. -/
def asked (ND : ℕ) (i : SmInfo) : Job :=
  let dirs := if i.spatial then ND - 1 else ND
  if i.smiters = 0 then .nothing else
  match i.type with
  | .NOSMEARING => .nothing
  | .APE => .staples .APE dirs
  | .STOUT => .staples .STOUT dirs
  | .LOG => .staples .LOG dirs
  | .HYP => .hypercubes .APE dirs
  | .HEX => .hypercubes .STOUT dirs
  | .HYL => .hypercubes .LOG dirs
  | .WFLOW_STOUT => .flow .STOUT false dirs
  | .WFLOW_LOG => .flow .LOG false dirs
  | .ADAPTWFLOW_STOUT => .flow .STOUT true dirs
  | .ADAPTWFLOW_LOG => .flow .LOG true dirs

/-- What a routine does in `ND` dimensions. -/
def does (ND : ℕ) : Option Routine → Job
  | none => .nothing
  | some (.flow_adaptive_RK3 k) => .flow k true ND
  | some (.flow_RK3 k _) => .flow k false ND
  | some (.smear3D k) => .staples k (ND - 1)
  | some (.smear4D k) => .staples k ND
  | some (.HYsmearND k d) => .hypercubes k d
  | some (.HYPSLsmear3D k) => .hypercubes k (ND - 1)
  | some (.HYPSLsmear4D_expensive k) => .hypercubes k ND

/-- Is it a gradient flow? -/
def SmType.IsFlow (t : SmType) : Prop :=
  t = .WFLOW_STOUT ∨ t = .WFLOW_LOG ∨ t = .ADAPTWFLOW_STOUT ∨ t = .ADAPTWFLOW_LOG

instance (t : SmType) : Decidable t.IsFlow := by unfold SmType.IsFlow; infer_instance

/-! ## The dispatch -/

/-- The remembered answer about the flow is never "slow". -/
theorem history_WF (l : List (Setup × ℕ × SmInfo)) : (history l).WF ≠ some .SLOW := by
  induction l with
  | nil => simp [history, Statics.init]
  | cons c l ih =>
    obtain ⟨s, v, i⟩ := c
    simp only [history]
    generalize history l = m at ih
    unfold SM_wrap_struct
    split
    · exact ih
    split
    · exact ih
    split
    · exact ih
    split
    · unfold have_memory_wf
      rcases h : m.WF with _ | w
      · simp only
        repeat' split
        all_goals simp_all
        all_goals subst_vars; simp
      · simp only [ne_eq]
        rw [← h]; exact ih
    · exact ih

/-- **C110**, dispatch (partial: a flow in the spatial directions only is left out, see `C110_direction_fails`): whatever was
called before, on whatever machine, a call that reports success runs a routine that does what was asked for. -/
theorem C110_dispatch_partial (s : Setup) (v : ℕ) (l : List (Setup × ℕ × SmInfo)) (i : SmInfo)
    (hf : i.type.IsFlow → i.spatial = false) (h : (SM_wrap_struct s v (history l) i).1 = true) :
    does s.ND (SM_wrap_struct s v (history l) i).2.1 = asked s.ND i := by
  have hw := history_WF l
  generalize history l = m at hw h
  obtain ⟨t, sp, n⟩ := i
  by_cases hn : n = 0
  · subst hn; simp [SM_wrap_struct, does, asked]
  have key : ∀ v, v ≠ Speed.SLOW → t.IsFlow → does s.ND (some (hyp_chooser s.ND ⟨t, sp, n⟩ v)) = asked s.ND ⟨t, sp, n⟩ := by
    intro v hv ht
    have hsp := hf ht
    simp only at hsp
    subst hsp
    rcases ht with rfl | rfl | rfl | rfl <;> rcases v with _ | _ | _ <;> simp_all [hyp_chooser, does, asked]
  have wf : ∀ (a b : Bool) w, (have_memory_wf s v m.WF a b).1 = some w → w ≠ .SLOW := by
    intro a b w hh
    unfold have_memory_wf at hh
    rcases e : m.WF with _ | x
    · rw [e] at hh
      simp only at hh
      repeat' split at hh
      all_goals simp_all
      all_goals subst_vars; simp
    · rw [e] at hh hw
      simp only [Option.some.injEq] at hh
      subst hh
      exact fun e => hw (by rw [e])
  by_cases ht : t.IsFlow
  · have h1 : ¬ (t = .NOSMEARING) := by rcases ht with rfl | rfl | rfl | rfl <;> simp
    have h2 : ¬ (t = .HYP ∨ t = .HEX ∨ t = .HYL) := by rcases ht with rfl | rfl | rfl | rfl <;> simp
    have h3 : t = .WFLOW_LOG ∨ t = .ADAPTWFLOW_LOG ∨ t = .WFLOW_STOUT ∨ t = .ADAPTWFLOW_STOUT := by
      rcases ht with rfl | rfl | rfl | rfl <;> simp
    unfold SM_wrap_struct at h ⊢
    simp only [if_neg hn, if_neg h1, if_neg h2, if_pos h3] at h ⊢
    generalize hb : (decide (t = .ADAPTWFLOW_LOG ∨ t = .ADAPTWFLOW_STOUT)) = b at h ⊢
    have := wf b sp
    generalize have_memory_wf s v m.WF b sp = a at this h ⊢
    obtain ⟨a1, a2⟩ := a
    rcases a1 with _ | w
    · simp at h
    · exact key w (this w rfl) ht
  · rcases t <;> simp only [SmType.IsFlow] at ht <;> simp at ht
    all_goals
      rcases sp <;> by_cases h4 : s.ND = 4 <;> rcases hm : (have_memory_hyp s v m.HYP false).1 with _ | _ | _ <;>
        simp [SM_wrap_struct, hn, hyp_chooser, gentype, SmType.code, does, asked, SmInfo.dir, h4, hm]

/-- **C110** fails for flows: asked for the spatial directions only, the flow runs in all of them and success is reported. -/
theorem C110_direction_fails (s : Setup) (v : ℕ) (l : List (Setup × ℕ × SmInfo)) (t : SmType) (ht : t.IsFlow) (n : ℕ)
    (hn : n ≠ 0) (hND : 0 < s.ND)
    (h : (SM_wrap_struct s v (history l) ⟨t, true, n⟩).1 = true) :
    does s.ND (SM_wrap_struct s v (history l) ⟨t, true, n⟩).2.1 = asked s.ND ⟨t, false, n⟩ ∧
      asked s.ND ⟨t, false, n⟩ ≠ asked s.ND ⟨t, true, n⟩ := by
  refine ⟨?_, ?_⟩
  · have hw := history_WF l
    generalize history l = m at hw h
    rcases m with ⟨a, b⟩
    rcases b with _ | b
    · rcases ht with rfl | rfl | rfl | rfl <;>
        simp [SM_wrap_struct, hn, have_memory_wf, hyp_chooser, does, asked]
    · rcases b with _ | _ | _
      · rcases ht with rfl | rfl | rfl | rfl <;>
          simp [SM_wrap_struct, hn, have_memory_wf, hyp_chooser, does, asked]
      · rcases ht with rfl | rfl | rfl | rfl <;>
          simp [SM_wrap_struct, hn, have_memory_wf, hyp_chooser, does, asked]
      · exact absurd rfl hw
  · rcases ht with rfl | rfl | rfl | rfl <;> simp [asked, hn] <;> omega

/-- Such a call succeeds on every machine that has not been asked before. -/
example (s : Setup) (v : ℕ) : (SM_wrap_struct s v (history []) ⟨.WFLOW_LOG, true, 5⟩).1 = true := by
  simp [SM_wrap_struct, history, Statics.init, have_memory_wf]

/-- **C110**, refusal: a call is refused exactly if it is a flow in all directions, no earlier call has settled the question, and
the memory is less than both estimates; nothing is run and nothing is remembered. -/
theorem C110_refused (s : Setup) (v : ℕ) (m : Statics) (i : SmInfo) :
    (SM_wrap_struct s v m i).1 = false ↔
      i.smiters ≠ 0 ∧ i.type.IsFlow ∧ i.spatial = false ∧ m.WF = none ∧
        s.memory < wf_more s (i.type = .ADAPTWFLOW_LOG ∨ i.type = .ADAPTWFLOW_STOUT) ∧
        s.memory < wf_less s v (i.type = .ADAPTWFLOW_LOG ∨ i.type = .ADAPTWFLOW_STOUT) := by
  obtain ⟨t, sp, n⟩ := i
  obtain ⟨a, b⟩ := m
  by_cases hn : n = 0
  · simp [SM_wrap_struct, hn]
  rcases t <;> simp only [SM_wrap_struct, hn, SmType.IsFlow] <;> simp
  all_goals
    rcases b with _ | b <;> simp [have_memory_wf]
    rcases sp <;> simp
  all_goals
    repeat' split
    all_goals simp_all

/-- After a refusal the library is as before. -/
theorem C110_refused_clean (s : Setup) (v : ℕ) (m : Statics) (i : SmInfo) (h : (SM_wrap_struct s v m i).1 = false) :
    (SM_wrap_struct s v m i).2 = (none, m) := by
  have hm := (C110_refused s v m i).mp h
  obtain ⟨t, sp, n⟩ := i
  obtain ⟨a, b⟩ := m
  obtain ⟨hn, ht, hsp, hb, h1, h2⟩ := hm
  simp only at hn ht hsp hb h1 h2
  subst hsp hb
  rcases ht with rfl | rfl | rfl | rfl <;> simp at h1 h2 <;> simp [SM_wrap_struct, hn, have_memory_wf, h1, h2]

/-! ## The links -/

/-- The update of a link that a job without flow makes. -/
def jobUpd (L : Latt) (lib : Lib M) : Job → Option (ℕ × Upd M Unit)
  | .staples k d => some (d, if d = L.ND then lib.upd4 k else lib.upd3 k)
  | .hypercubes k d => some (d, hypLink L (lib.dress k) d)
  | _ => none

theorem only_four (s : Setup) (v : ℕ) (m : Statics) (i : SmInfo) (h4 : s.ND ≠ 4) (k : Kind) :
    ¬ ((SM_wrap_struct s v m i).2.1 = some (.HYPSLsmear3D k) ∨
      (SM_wrap_struct s v m i).2.1 = some (.HYPSLsmear4D_expensive k)) := by
  have hc : ∀ w, hyp_chooser s.ND i w ≠ .HYPSLsmear3D k ∧ hyp_chooser s.ND i w ≠ .HYPSLsmear4D_expensive k := by
    intro w
    unfold hyp_chooser
    simp only [ne_eq, h4, not_false_eq_true, if_true]
    repeat' split
    all_goals simp
  unfold SM_wrap_struct
  repeat' split
  all_goals simp
  · exact hc _
  · split
    · simp
    · simpa using hc _
  · exact hc _

/-- **C110**, links (partial: without flows, for at least three dimensions and when the work space can be allocated): on a machine
with any amount of memory, after any history of calls, the links are those of `smiters` simultaneous updates of the links in the
directions asked for, with the smearing asked for; the status is success. -/
theorem C110_links_partial {L : Latt} (hL : Valid L) (h3 : 3 ≤ L.ND) (lib : Lib M)
    (h4 : ∀ k, Reads L (Adjacent (extent L)) (lib.upd4 k)) (hs3 : ∀ k, ReadsSlice L (lib.upd3 k))
    (hz : ∀ k, ZeroAdd (lib.dress k)) (s : Setup) (hs : s.ND = L.ND) (l : List (Setup × ℕ × SmInfo)) (i : SmInfo)
    {d : ℕ} {upd : Upd M Unit} (hu : jobUpd L lib (asked L.ND i) = some (d, upd)) (st : St M Unit) :
    smearRun s L lib true (history l) i st = (true, ((simultaneous L d upd)^[i.smiters] (st.lat, st.z)).1) := by
  have hflow : ¬ i.type.IsFlow := by
    intro ht
    obtain ⟨t, sp, n⟩ := i
    rcases ht with h | h | h | h <;> simp only at h <;> subst h <;> by_cases hn : n = 0 <;>
      simp [asked, jobUpd, hn] at hu
  have hok : (SM_wrap_struct s (lcu L) (history l) i).1 = true := by
    by_contra hc
    exact hflow ((C110_refused _ _ _ _).mp (by simpa using hc)).2.1
  have hd := C110_dispatch_partial s (lcu L) l i (fun h => absurd h hflow) hok
  have hfour : ∀ k, (SM_wrap_struct s (lcu L) (history l) i).2.1 = some (.HYPSLsmear3D k) ∨
      (SM_wrap_struct s (lcu L) (history l) i).2.1 = some (.HYPSLsmear4D_expensive k) → L.ND = 4 := by
    intro k hk
    by_contra hne
    rw [← hs] at hne
    exact only_four _ _ _ _ hne k hk
  unfold smearRun
  generalize SM_wrap_struct s (lcu L) (history l) i = c at hok hd hfour
  obtain ⟨c1, r, m⟩ := c
  simp only at hok hd hfour
  subst hok
  rw [hs] at hd
  rw [← hd] at hu
  have e3 : L.ND - 1 ≠ L.ND := by omega
  rcases r with _ | r
  · simp [does, jobUpd] at hu
  simp only [Prod.mk.injEq, true_and]
  rcases r with k | ⟨k, b⟩ | k | k | ⟨k, dd⟩ | k | k
  · simp [does, jobUpd] at hu
  · simp [does, jobUpd] at hu
  · simp only [does, jobUpd, if_neg e3, Option.some.injEq, Prod.mk.injEq] at hu
    obtain ⟨rfl, rfl⟩ := hu
    have := C33_smear3D hL (hs3 k) i.smiters st
    rw [if_neg (by omega)] at this
    simp only [runRoutine, if_true, Option.getD_some]
    exact congrArg Prod.fst this
  · simp only [does, jobUpd, if_true, Option.some.injEq, Prod.mk.injEq] at hu
    obtain ⟨rfl, rfl⟩ := hu
    simp only [runRoutine, if_true, Option.getD_some]
    exact congrArg Prod.fst (C33_smear4D hL (h4 k) i.smiters st)
  · simp only [does, jobUpd, Option.some.injEq, Prod.mk.injEq] at hu
    obtain ⟨rfl, rfl⟩ := hu
    have hdd : dd ≤ L.ND := by
      obtain ⟨t, sp, n⟩ := i
      simp only [does, asked] at hd
      rcases t <;> rcases sp <;> by_cases hn : n = 0 <;> simp [hn] at hd <;> omega
    simp only [runRoutine, if_true, Option.getD_some]
    exact C89_simultaneous hL (lib.dress k) hdd i.smiters st
  · simp only [does, jobUpd, Option.some.injEq, Prod.mk.injEq] at hu
    obtain ⟨rfl, rfl⟩ := hu
    have e4 := hfour k (Or.inl rfl)
    obtain ⟨r, hr, hr'⟩ := C89_spatial hL e4 (hz k) lib.junk1 i.smiters (st.lat, st.lat2) st rfl
    simp only [runRoutine, if_true, hr, Option.map_some, Option.getD_some]
    rw [hr', C89_simultaneous hL (lib.dress k) (by omega), e4]
  · simp only [does, jobUpd, Option.some.injEq, Prod.mk.injEq] at hu
    obtain ⟨rfl, rfl⟩ := hu
    have e4 := hfour k (Or.inr rfl)
    obtain ⟨r, hr, hr'⟩ := C89_fast hL e4 (hz k) lib.junk1 lib.junk2 i.smiters st st rfl
    simp only [runRoutine, if_true, hr, Option.map_some, Option.getD_some]
    rw [hr', C89_simultaneous hL (lib.dress k) (by omega), e4]

/-- **C110**, memory: without a flow, two machines with any amounts of memory and any histories give the same links. -/
theorem C110_memory {L : Latt} (hL : Valid L) (h3 : 3 ≤ L.ND) (lib : Lib M)
    (h4 : ∀ k, Reads L (Adjacent (extent L)) (lib.upd4 k)) (hs3 : ∀ k, ReadsSlice L (lib.upd3 k))
    (hz : ∀ k, ZeroAdd (lib.dress k)) (s s' : Setup) (hs : s.ND = L.ND) (hs' : s'.ND = L.ND)
    (l l' : List (Setup × ℕ × SmInfo)) (i : SmInfo) (hi : ¬ i.type.IsFlow) (st : St M Unit) :
    smearRun s L lib true (history l) i st = smearRun s' L lib true (history l') i st := by
  rcases hj : jobUpd L lib (asked L.ND i) with _ | ⟨d, upd⟩
  · have hno : i.smiters = 0 ∨ i.type = .NOSMEARING := by
      obtain ⟨t, sp, n⟩ := i
      by_cases hn : n = 0
      · exact Or.inl hn
      · rcases t <;> simp [SmType.IsFlow] at hi <;> simp [asked, hn, jobUpd] at hj ⊢
    rcases hno with h | h <;> simp [smearRun, SM_wrap_struct, h]
  · rw [C110_links_partial hL h3 lib h4 hs3 hz s hs l i hj st, C110_links_partial hL h3 lib h4 hs3 hz s' hs' l' i hj st]

/-- **C110** fails when the work space cannot be allocated: success is reported and the links are the old ones. -/
theorem C110_status_fails (L : Latt) (lib : Lib M) (s : Setup) (l : List (Setup × ℕ × SmInfo)) (i : SmInfo)
    (hi : ¬ i.type.IsFlow) (st : St M Unit) :
    smearRun s L lib false (history l) i st = (true, st.lat) := by
  have hok : (SM_wrap_struct s (lcu L) (history l) i).1 = true := by
    by_contra hc
    exact hi ((C110_refused _ _ _ _).mp (by simpa using hc)).2.1
  unfold smearRun
  simp only [hok, Prod.mk.injEq, true_and]
  split
  · rfl
  · next r _ => rcases r <;> rfl

/-! ## The memory estimate -/

/-- The bytes of the work space of `HYPSLsmear4D_expensive`, `4D_fast.c:262-271`: three slices of links and two levels of
dressed links, `ND ( ND - 1 )` for every site. -/
def fastBytes (s : Setup) (lcu : ℕ) : ℕ :=
  16 * (3 * (lcu * s.ND * s.NC ^ 2) + 2 * (s.volume * (s.ND * (s.ND - 1)) * s.NC ^ 2))

/-- In four dimensions the estimate is the work space of the routine and the links themselves. -/
theorem C110_estimate_exact (s : Setup) (v : ℕ) (h4 : s.ND = 4) :
    hyp_more s v = fastBytes s v + 16 * (s.volume * s.ND * s.NC ^ 2) := by
  unfold hyp_more fastBytes
  rw [h4]
  ring

/-- The routine is called for hypercubic smearing of all links only. -/
theorem fast_only (s : Setup) (v : ℕ) (l : List (Setup × ℕ × SmInfo)) (i : SmInfo) (k : Kind)
    (h : (SM_wrap_struct s v (history l) i).2.1 = some (.HYPSLsmear4D_expensive k)) :
    (i.type = .HYP ∨ i.type = .HEX ∨ i.type = .HYL) ∧ i.spatial = false ∧ s.ND = 4 ∧
      (have_memory_hyp s v (history l).HYP false).1 = .FAST := by
  have h4 : s.ND = 4 := by
    by_contra hc
    exact only_four _ _ _ _ hc k (Or.inr h)
  by_cases ht : i.type.IsFlow
  · exfalso
    by_cases hok : (SM_wrap_struct s v (history l) i).1 = true
    · rcases hsp : i.spatial with _ | _
      · have := C110_dispatch_partial s v l i (fun _ => hsp) hok
        rw [h] at this
        obtain ⟨t, sp, n⟩ := i
        rcases ht with e | e | e | e <;> simp only at e <;> subst e <;> by_cases hn : n = 0 <;> simp [does, asked, hn] at this
      · obtain ⟨t, sp, n⟩ := i
        simp only at hsp
        subst hsp
        by_cases hn : n = 0
        · simp [SM_wrap_struct, hn] at h
        have := (C110_direction_fails s v l t ht n hn (by omega) hok).1
        rw [h] at this
        rcases ht with e | e | e | e <;> simp only at e <;> subst e <;> simp [does, asked, hn] at this
    · rw [C110_refused_clean s v _ i (by simpa using hok)] at h
      simp at h
  · obtain ⟨t, sp, n⟩ := i
    by_cases hn : n = 0
    · simp [SM_wrap_struct, hn] at h
    rcases t <;> simp [SmType.IsFlow] at ht <;> rcases sp <;> simp [SM_wrap_struct, hn, hyp_chooser, h4] at h
    all_goals
      refine ⟨by simp, rfl, h4, ?_⟩
      by_contra hc
      simp [hc] at h

/-- What is remembered from calls on the same machine without spatial smearing is the answer a first call would get. -/
theorem remembered (s : Setup) (v : ℕ) (l : List (Setup × ℕ × SmInfo))
    (hl : ∀ c ∈ l, c.1 = s ∧ c.2.1 = v ∧ c.2.2.spatial = false) :
    (history l).HYP = none ∨ (history l).HYP = some (have_memory_hyp s v none false).1 := by
  induction l with
  | nil => exact .inl rfl
  | cons c l ih =>
    have ih := ih fun c hc => hl c (List.mem_cons_of_mem _ hc)
    obtain ⟨s', v', i⟩ := c
    obtain ⟨h1, h2, h3⟩ := hl _ List.mem_cons_self
    simp only at h1 h2 h3
    subst h1 h2
    simp only [history, SM_wrap_struct]
    split
    · exact ih
    split
    · exact ih
    split
    · right
      rw [h3]
      rcases ih with e | e <;> rw [e] <;> rfl
    split
    · split <;> exact ih
    · exact ih

/-- **C110**, estimate (partial: fewer than four colours, and no spatial smearing before): the routine that keeps all dressed
links is called only if the machine has the memory for them and the links, whatever was smeared before. -/
theorem C110_estimate_partial (s : Setup) (v : ℕ) (hNC : s.NC < 4) (l : List (Setup × ℕ × SmInfo))
    (hl : ∀ c ∈ l, c.1 = s ∧ c.2.1 = v ∧ c.2.2.spatial = false) (i : SmInfo) (k : Kind)
    (h : (SM_wrap_struct s v (history l) i).2.1 = some (.HYPSLsmear4D_expensive k)) :
    fastBytes s v + 16 * (s.volume * s.ND * s.NC ^ 2) ≤ s.memory := by
  obtain ⟨-, -, h4, hm⟩ := fast_only s v l i k h
  rw [← C110_estimate_exact s v h4]
  by_contra hc
  rw [not_le] at hc
  have hm : (have_memory_hyp s v none false).1 = .FAST := by
    rcases remembered s v l hl with e | e <;> rw [e] at hm <;> exact hm
  simp only [have_memory_hyp, Bool.false_eq_true, if_false, if_pos hc, if_pos hNC] at hm
  split at hm <;> simp at hm

/-- Two hypercubic smearings on a machine with too little memory: the second is not given to the routine either. -/
example : (SM_wrap_struct ⟨3, 4, 4096, 2 ^ 24⟩ 512 (history [(⟨3, 4, 4096, 2 ^ 24⟩, 512, ⟨.HYP, false, 5⟩)])
    ⟨.HYP, false, 5⟩).2.1 ≠ some (.HYPSLsmear4D_expensive .APE) := by decide

/-- It is called, on a machine with a terabyte. -/
example : (SM_wrap_struct ⟨3, 4, 4096, 10 ^ 12⟩ 512 (history []) ⟨.HYP, false, 5⟩).2.1 =
    some (.HYPSLsmear4D_expensive .APE) := by decide

/-- **C110** fails for four colours: 8⁴ sites and 16 megabytes, the work space needs more, and yet the routine is called. -/
theorem C110_estimate_colours_fails :
    (SM_wrap_struct ⟨4, 4, 4096, 2 ^ 24⟩ 512 (history []) ⟨.HYP, false, 5⟩).2.1 = some (.HYPSLsmear4D_expensive .APE) ∧
      2 ^ 24 < fastBytes ⟨4, 4, 4096, 2 ^ 24⟩ 512 := by decide

/-- **C110** fails after a spatial smearing: the answer given to it, for which no memory is compared, is remembered. -/
theorem C110_estimate_history_fails (s : Setup) (v : ℕ) (h4 : s.ND = 4) :
    (SM_wrap_struct s v (history [(s, v, ⟨.HYP, true, 1⟩)]) ⟨.HYP, false, 1⟩).2.1 = some (.HYPSLsmear4D_expensive .APE) := by
  simp [SM_wrap_struct, history, Statics.init, have_memory_hyp, hyp_chooser, h4, gentype, SmType.code]

/-- Non-vacuity of `C110_links_partial`: the library with the link updates of `smear.c` and any projections; a HYP smearing of all
links after a flow that was refused. -/
example (log : Option (Arr ℂ) → Option (Arr ℂ)) (p : Kind → Option (Arr ℂ) → Option (Arr ℂ) → Option (Arr ℂ))
    (q : Kind → ℕ → Arr ℂ → Arr ℂ → Option (Arr ℂ)) (zero : Option (Arr ℂ)) (junk : ℕ → ℕ → ℕ → Option (Arr ℂ)) (memory : ℕ)
    (st : St (Option (Arr ℂ)) Unit) :
    let lib : Lib (Option (Arr ℂ)) :=
      { upd4 := fun k => if k = .LOG then smearLinkLog L2345 (opsO 3) log zero (p k) 4 else smearLink L2345 (opsO 3) zero (p k) 4
        upd3 := fun k => if k = .LOG then smearLinkLog L2345 (opsO 3) log zero (p k) 3 else smearLink L2345 (opsO 3) zero (p k) 3
        dress := fun k => dressO 3 (q k), junk1 := junk, junk2 := junk }
    smearRun ⟨3, 4, 120, memory⟩ L2345 lib true (history [(⟨3, 4, 120, 1⟩, 24, ⟨.WFLOW_LOG, false, 1⟩)]) ⟨.HYP, false, 7⟩ st =
      (true, ((simultaneous L2345 4 (hypLink L2345 (dressO 3 (q .APE)) 4))^[7] (st.lat, st.z)).1) := by
  intro lib
  refine C110_links_partial valid_L2345 (by decide) lib (fun k => ?_) (fun k => ?_) (fun k => opsO_zeroAdd 3 _) _ rfl _ _ rfl st
  · show Reads _ _ (if k = .LOG then _ else _)
    split
    · exact (C33_updates_local (Z := Unit) valid_L2345 (opsO 3) log zero (p k) (fun z _ _ => z) (fun z _ => z) (fun _ m => m)).2.1
    · exact (C33_updates_local (Z := Unit) valid_L2345 (opsO 3) log zero (p k) (fun z _ _ => z) (fun z _ => z) (fun _ m => m)).1
  · show ReadsSlice _ (if k = .LOG then _ else _)
    split
    · exact (C33_updates_spatial valid_L2345 (opsO 3) log zero (p k)).2
    · exact (C33_updates_spatial valid_L2345 (opsO 3) log zero (p k)).1

end GLU.Smear
