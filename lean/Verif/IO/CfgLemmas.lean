import Verif.IO.CfgModel
import Verif.IO.ChkProps

/-! # Lemmas about configuration files -/

namespace GLU.IO

/-! ### Machine words -/

/-- What a floating point format must satisfy. -/
structure Word.Lawful (P : Word) : Prop where
  pos : 0 < P.size
  len : ∀ w, (P.bytes w).length = P.size
  ofBytes_bytes : ∀ w, P.ofBytes (P.bytes w) = w
  bytes_ofBytes : ∀ l, l.length = P.size → P.bytes (P.ofBytes l) = l
  bytes_swap : ∀ w, P.bytes (P.swap w) = (P.bytes w).reverse

theorem getLsbD_joinBytes (n : ℕ) (l : List Byte) (i : ℕ) (hi : i < n) :
    (joinBytes n l).getLsbD i = ((l[i / 8]?).map fun b => b.getLsbD (i % 8)).getD false := by
  induction l generalizing i with
  | nil => simp [joinBytes]
  | cons b l ih =>
    simp only [joinBytes, BitVec.getLsbD_or, BitVec.getLsbD_setWidth, BitVec.getLsbD_shiftLeft, hi,
      decide_true, Bool.true_and]
    by_cases h : i < 8
    · have h0 : i / 8 = 0 := by omega
      have h1 : i % 8 = i := by omega
      simp [h, h0, h1]
    · have h0 : i / 8 = (i - 8) / 8 + 1 := by omega
      have h1 : i % 8 = (i - 8) % 8 := by omega
      rw [BitVec.getLsbD_of_ge b i (by omega), ih (i - 8) (by omega), h0, h1]
      simp [h]

theorem joinBytes_bytesOf (k : ℕ) (w : BitVec (8 * k)) : joinBytes (8 * k) (bytesOf k w) = w := by
  apply BitVec.eq_of_getLsbD_eq
  intro i hi
  rw [getLsbD_joinBytes _ _ _ hi]
  have hk : i / 8 < k := by omega
  have : 8 * (i / 8) + i % 8 = i := by omega
  have h8 : i % 8 < 8 := by omega
  simp only [bytesOf, List.getElem?_map, List.getElem?_range hk, Option.map_some, Option.getD_some,
    BitVec.getLsbD_extractLsb', h8, decide_true, Bool.true_and, this]

theorem bytesOf_joinBytes (k : ℕ) (l : List Byte) (hl : l.length = k) :
    bytesOf k (joinBytes (8 * k) l) = l := by
  apply List.ext_getElem (by simp [bytesOf, hl])
  intro i h1 h2
  simp only [bytesOf, List.getElem_map, List.getElem_range]
  apply BitVec.eq_of_getLsbD_eq
  intro j hj
  have e1 : (8 * i + j) / 8 = i := by omega
  have e2 : (8 * i + j) % 8 = j := by omega
  rw [BitVec.getLsbD_extractLsb', getLsbD_joinBytes _ _ _ (by omega), e1, e2,
    List.getElem?_eq_getElem h2]
  simp [hj]

theorem dbl_lawful : dbl.Lawful where
  pos := by decide
  len w := by simp [dbl]
  ofBytes_bytes w := joinBytes_bytesOf 8 w
  bytes_ofBytes l hl := bytesOf_joinBytes 8 l hl
  bytes_swap w := bytes_swap64 w

theorem flt_lawful : flt.Lawful where
  pos := by decide
  len w := by simp [flt]
  ofBytes_bytes w := joinBytes_bytesOf 4 w
  bytes_ofBytes l hl := bytesOf_joinBytes 4 l hl
  bytes_swap w := bytes_swap32 w

/-- The bytes of a word in a file of the given byte order. -/
def image (P : Word) (outBig : Bool) (w : P.W) : List Byte :=
  if outBig then (P.bytes w).reverse else P.bytes w

variable {P : Word}

theorem image_length (hP : P.Lawful) (o : Bool) (w : P.W) : (image P o w).length = P.size := by
  cases o <;> simp [image, hP.len]

theorem mem_swap_for_output (hP : P.Lawful) (outBig big : Bool) (w : P.W) :
    mem P big (swap_for_output outBig big w) = image P outBig w := by
  cases outBig <;> cases big <;> simp [mem, swap_for_output, image, hP.bytes_swap]

theorem decode_image (hP : P.Lawful) (o big : Bool) (w : P.W) :
    (if o != big then P.swap (ofMem P big (image P o w)) else ofMem P big (image P o w)) = w := by
  have inj : ∀ a b, P.bytes a = P.bytes b → a = b := fun a b h => by
    rw [← hP.ofBytes_bytes a, h, hP.ofBytes_bytes]
  have hs : ∀ l, l.length = P.size → P.swap (P.ofBytes l) = P.ofBytes l.reverse := by
    intro l hl
    apply inj
    rw [hP.bytes_swap, hP.bytes_ofBytes _ hl, hP.bytes_ofBytes _ (by simpa using hl)]
  cases o <;> cases big <;>
    simp [ofMem, image, hP.ofBytes_bytes, hs, hP.len]

/-! ### Blocks of equal length -/

theorem flatMap_blocks {α : Type*} (K : ℕ) (V : ℕ) (h : ℕ → List α)
    (hK : ∀ i < V, (h i).length = K) :
    ((List.range V).flatMap h).length = V * K := by
  induction V with
  | zero => simp
  | succ V ih =>
    rw [List.range_succ, List.flatMap_append, List.length_append, ih fun i hi => hK i (by omega)]
    simp [hK V (by omega)]; ring

theorem flatMap_getElem? {α : Type*} (K : ℕ) (V : ℕ) (h : ℕ → List α)
    (hK : ∀ i < V, (h i).length = K) (i j : ℕ) (hi : i < V) (hj : j < K) :
    ((List.range V).flatMap h)[i * K + j]? = (h i)[j]? := by
  induction V with
  | zero => omega
  | succ V ih =>
    have hl := flatMap_blocks K V h fun i hi => hK i (by omega)
    rw [List.range_succ, List.flatMap_append]
    by_cases hiV : i < V
    · have : i * K + j < V * K := by
        calc i * K + j < i * K + K := by omega
          _ = (i + 1) * K := by ring
          _ ≤ V * K := Nat.mul_le_mul_right _ hiV
      rw [List.getElem?_append_left (by rw [hl]; exact this),
        ih (fun i hi => hK i (by omega)) hiV]
    · have : i = V := by omega
      subst this
      rw [List.getElem?_append_right (by rw [hl]; omega), hl]
      simp

theorem flatMap_window {α : Type*} (K : ℕ) (V : ℕ) (h : ℕ → List α)
    (hK : ∀ i < V, (h i).length = K) (rest : List α) (i : ℕ) (hi : i < V) :
    (((List.range V).flatMap h ++ rest).drop (i * K)).take K = h i := by
  have hlen : ((List.range V).flatMap h).length = V * K := flatMap_blocks K V h hK
  have hle : (i + 1) * K ≤ V * K := Nat.mul_le_mul_right _ hi
  have e : (i + 1) * K = i * K + K := by ring
  apply List.ext_getElem?
  intro j
  rw [List.getElem?_take]
  split
  · rename_i hj
    rw [List.getElem?_drop, List.getElem?_append_left (by rw [hlen]; omega),
      flatMap_getElem? K V h hK i j hi hj]
  · rename_i hj
    rw [List.getElem?_eq_none (by rw [hK i hi]; omega)]

theorem flatMap_list_range {α β : Type*} (L : List α) (f : α → List β) :
    L.flatMap f = (List.range L.length).flatMap fun n => ((L[n]?).map f).getD [] := by
  induction L with
  | nil => rfl
  | cons a L ih =>
    rw [List.flatMap_cons, List.length_cons, List.range_succ_eq_map, List.flatMap_cons, ih]
    simp [List.flatMap_map]

theorem mapM_range {α : Type*} (n : ℕ) (f : ℕ → Option α) (g : ℕ → α)
    (h : ∀ j < n, f j = some (g j)) : (List.range n).mapM f = some ((List.range n).map g) := by
  have key : ∀ l : List ℕ, (∀ j ∈ l, f j = some (g j)) → l.mapM f = some (l.map g) := by
    intro l
    induction l with
    | nil => intro _; rfl
    | cons a l ih =>
      intro hl
      rw [List.mapM_cons, hl a (by simp), ih fun j hj => hl j (by simp [hj])]
      rfl
  exact key _ fun j hj => h j (List.mem_range.1 hj)

/-! ### Reductions -/

theorem Sums.add_assoc (a b c : Sums) : (a.add b).add c = a.add (b.add c) := by
  simp [Sums.add, BitVec.add_assoc, BitVec.xor_assoc]

theorem Sums.add_comm (a b : Sums) : a.add b = b.add a := by
  simp [Sums.add, BitVec.add_comm, BitVec.xor_comm]

theorem Sums.zero_add (a : Sums) : Sums.zero.add a = a := by
  simp [Sums.add, Sums.zero]

theorem Sums.add_zero (a : Sums) : a.add Sums.zero = a := by
  rw [Sums.add_comm, Sums.zero_add]

/-- The sum over a list of sites. -/
def total (f : ℕ → Sums) (l : List ℕ) : Sums := l.foldr (fun i a => (f i).add a) Sums.zero

theorem total_append (f : ℕ → Sums) (l l' : List ℕ) :
    total f (l ++ l') = (total f l).add (total f l') := by
  induction l with
  | nil => simp [total, Sums.zero_add]
  | cons a l ih =>
    have : ∀ l, total f (a :: l) = (f a).add (total f l) := fun _ => rfl
    rw [List.cons_append, this, this, ih, Sums.add_assoc]

theorem thread_eq (f : ℕ → Sums) (l : List ℕ) (s : Sums) :
    l.foldl (fun a i => a.add (f i)) s = s.add (total f l) := by
  induction l generalizing s with
  | nil => simp [total, Sums.add_zero]
  | cons a l ih =>
    have : ∀ l, total f (a :: l) = (f a).add (total f l) := fun _ => rfl
    rw [List.foldl_cons, ih, this, Sums.add_assoc]

theorem total_perm (f : ℕ → Sums) {l l' : List ℕ} (h : l.Perm l') : total f l = total f l' := by
  induction h with
  | nil => rfl
  | cons a _ ih =>
    have : ∀ l, total f (a :: l) = (f a).add (total f l) := fun _ => rfl
    rw [this, this, ih]
  | swap a b l =>
    have : ∀ a l, total f (a :: l) = (f a).add (total f l) := fun _ _ => rfl
    simp only [this]
    rw [← Sums.add_assoc, ← Sums.add_assoc, Sums.add_comm (f a)]
  | trans _ _ h1 h2 => exact h1.trans h2

theorem reduceSums_eq (f : ℕ → Sums) (sched : List (List ℕ)) :
    reduceSums f sched = total f sched.flatten := by
  unfold reduceSums
  have key : ∀ s : Sums, (sched.map fun s => s.foldl (fun a i => a.add (f i)) Sums.zero).foldl
      Sums.add s = s.add (total f sched.flatten) := by
    induction sched with
    | nil => intro s; simp [total, Sums.add_zero]
    | cons a l ih =>
      intro s
      rw [List.map_cons, List.foldl_cons, ih, List.flatten_cons, total_append, thread_eq,
        Sums.zero_add, Sums.add_assoc]
  rw [key, Sums.zero_add]

theorem total_congr {f g : ℕ → Sums} {l : List ℕ} (h : ∀ i ∈ l, f i = g i) :
    total f l = total g l := by
  induction l with
  | nil => rfl
  | cons a l ih =>
    have : ∀ f l, total f (a :: l) = (f a).add (total f l) := fun _ _ => rfl
    rw [this, this, h a (by simp), ih fun i hi => h i (by simp [hi])]

/-! ### The buffer -/

theorem put_spec {W : Type} (cast : W → W) (ws : List W) (b : Buf W) (val : ℕ)
    (h : val + ws.length ≤ b.size) :
    ∃ b', put cast b val ws = some b' ∧ b'.size = b.size ∧
      ∀ n, b'.get n = if val ≤ n ∧ n < val + ws.length then (ws[n - val]?).map cast
        else b.get n := by
  induction ws generalizing b val with
  | nil => exact ⟨b, rfl, rfl, fun n => by simp⟩
  | cons w ws ih =>
    simp only [List.length_cons] at h
    simp only [put, Buf.set]
    rw [if_pos (by omega)]
    obtain ⟨b', h1, h2, h3⟩ := ih ⟨b.size, Function.update b.get val (some (cast w))⟩ (val + 1)
      (by simp only; omega)
    refine ⟨b', h1, h2, fun n => ?_⟩
    rw [h3, List.length_cons]
    by_cases hn : n = val
    · subst hn
      rw [if_neg (by omega), if_pos (by omega)]
      simp
    · by_cases hin : val + 1 ≤ n ∧ n < val + 1 + ws.length
      · rw [if_pos hin, if_pos (by omega)]
        have : n - val = n - (val + 1) + 1 := by omega
        rw [this, List.getElem?_cons_succ]
      · rw [if_neg hin, if_neg (by omega)]
        simp [Function.update_apply, hn]

theorem put_none {W : Type} (cast : W → W) (ws : List W) (b : Buf W) (val : ℕ)
    (h : b.size < val + ws.length) (hne : ws ≠ []) : put cast b val ws = none := by
  induction ws generalizing b val with
  | nil => exact absurd rfl hne
  | cons w ws ih =>
    simp only [put, Buf.set]
    by_cases h1 : val < b.size
    · rw [if_pos h1, Option.bind_some]
      apply ih
      · simp only [List.length_cons] at h; simp only; omega
      · rintro rfl; simp only [List.length_cons, List.length_nil] at h; omega
    · rw [if_neg h1]; rfl

end GLU.IO
