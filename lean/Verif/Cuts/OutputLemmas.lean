import Verif.Cuts.Output
import Verif.Cuts.OutputSpec
import Verif.IO.MilcHdrProps
import Verif.IO.ChkLemmas

/-! # The files of the measurements: lemmas -/

namespace GLU.Cuts
open GLU.IO

theorem bigEndian_foldl (l : List Byte) (n : ℕ) :
    l.foldl (fun n b => 256 * n + b.toNat) n = n * 256 ^ l.length + bigEndian l := by
  induction l generalizing n with
  | nil => simp [bigEndian]
  | cons b l ih =>
    rw [bigEndian, List.foldl_cons, List.foldl_cons, ih, ih (256 * 0 + b.toNat), List.length_cons]
    ring

theorem bigEndian_cons (b : Byte) (l : List Byte) :
    bigEndian (b :: l) = b.toNat * 256 ^ l.length + bigEndian l := by
  have := bigEndian_foldl l (256 * 0 + b.toNat)
  rw [Nat.mul_zero, Nat.zero_add] at this
  rw [← this, bigEndian, List.foldl_cons, Nat.mul_zero, Nat.zero_add]

theorem bigEndian_bytesOf {m : ℕ} (k : ℕ) (w : BitVec m) :
    bigEndian (bytesOf k w).reverse = w.toNat % 2 ^ (8 * k) := by
  induction k with
  | zero => simp [bytesOf, bigEndian, Nat.mod_one]
  | succ k ih =>
    have : bytesOf (k + 1) w = bytesOf k w ++ [w.extractLsb' (8 * k) 8] := by
      simp [bytesOf, List.range_succ]
    rw [this, List.reverse_append, List.reverse_singleton, List.singleton_append, bigEndian_cons, ih]
    have hl : (bytesOf k w).reverse.length = k := by simp [bytesOf]
    rw [hl, BitVec.extractLsb'_toNat, Nat.shiftRight_eq_div_pow,
      show 2 ^ (8 * (k + 1)) = 2 ^ (8 * k) * 2 ^ 8 by rw [← pow_add]; ring_nf, Nat.mod_mul,
      show (256 : ℕ) ^ k = 2 ^ (8 * k) by rw [pow_mul]; norm_num]
    ring

theorem bigEndian_int (w : W32) : bigEndian (imageInt true w) = w.toNat := by
  have h := bigEndian_bytesOf 4 w
  rw [Nat.mod_eq_of_lt (by have := w.isLt; simpa using this)] at h
  exact h

theorem bigEndian_dbl (w : W64) : bigEndian (imageDbl true w) = w.toNat := by
  have h := bigEndian_bytesOf 8 w
  rw [Nat.mod_eq_of_lt (by have := w.isLt; simpa using this)] at h
  exact h

theorem FWRITE_32_eq (big : Bool) (arr : List W32) (stride : ℕ) (h : stride ≤ arr.length) :
    FWRITE_32 big arr stride = some ((arr.take stride).flatMap (imageInt true), arr) := by
  have hi : ∀ w, memInt big (if true != big then SwapByteOrder_32 w else w) = imageInt true w :=
    memInt_swap true big
  cases big
  · obtain ⟨v, hv⟩ : ∃ v, bswap_32 stride arr = some v := by rw [bswap_32, bswap_spec, if_pos h]; exact ⟨_, rfl⟩
    have hv' := hv
    rw [bswap_32, bswap_spec, if_pos h] at hv'
    have hvv : bswap_32 stride v = some arr := by
      rw [bswap_32, bswap_spec, if_pos (by rw [← Option.some.inj hv']; simp; omega),
        ← Option.some.inj hv']
      congr 1
      have hlen : ((arr.take stride).map SwapByteOrder_32).length = stride := by simp; omega
      rw [List.take_left' hlen, List.drop_left' hlen, List.map_map]
      rw [show (SwapByteOrder_32 ∘ SwapByteOrder_32) = id from funext swap32_swap32, List.map_id,
        List.take_append_drop]
    have hl : stride ≤ v.length := by rw [← Option.some.inj hv']; simp; omega
    have ht : v.take stride = (arr.take stride).map SwapByteOrder_32 := by
      rw [← Option.some.inj hv', List.take_left' (by simp; omega)]
    simp only [FWRITE_32, Bool.not_false, if_true, hv, hvv, Option.bind_eq_bind, Option.bind_some, hl, ht]
    rw [List.flatMap_map]
    simp only [Bool.true_bne, Bool.not_false, if_true] at hi
    simp only [hi]
    rfl
  · simp only [Bool.true_bne, Bool.not_true, Bool.false_eq_true, if_false] at hi
    simp [FWRITE_32, h, show memInt true = imageInt true from funext hi]

theorem FWRITE_64_eq (big : Bool) (arr : List W64) (stride : ℕ) (h : stride ≤ arr.length) :
    FWRITE_64 big arr stride = some ((arr.take stride).flatMap (imageDbl true), arr) := by
  have hi : ∀ w, memDbl big (if true != big then SwapByteOrder_64 w else w) = imageDbl true w :=
    memDbl_swap true big
  cases big
  · obtain ⟨v, hv⟩ : ∃ v, bswap_64 stride arr = some v := by rw [bswap_64, bswap_spec, if_pos h]; exact ⟨_, rfl⟩
    have hv' := hv
    rw [bswap_64, bswap_spec, if_pos h] at hv'
    have hvv : bswap_64 stride v = some arr := by
      rw [bswap_64, bswap_spec, if_pos (by rw [← Option.some.inj hv']; simp; omega),
        ← Option.some.inj hv']
      congr 1
      have hlen : ((arr.take stride).map SwapByteOrder_64).length = stride := by simp; omega
      rw [List.take_left' hlen, List.drop_left' hlen, List.map_map]
      rw [show (SwapByteOrder_64 ∘ SwapByteOrder_64) = id from funext swap64_swap64, List.map_id,
        List.take_append_drop]
    have hl : stride ≤ v.length := by rw [← Option.some.inj hv']; simp; omega
    have ht : v.take stride = (arr.take stride).map SwapByteOrder_64 := by
      rw [← Option.some.inj hv', List.take_left' (by simp; omega)]
    simp only [FWRITE_64, Bool.not_false, if_true, hv, hvv, Option.bind_eq_bind, Option.bind_some, hl, ht]
    rw [List.flatMap_map]
    simp only [Bool.true_bne, Bool.not_false, if_true] at hi
    simp only [hi]
    rfl
  · simp only [Bool.true_bne, Bool.not_true, Bool.false_eq_true, if_false] at hi
    simp [FWRITE_64, h, show memDbl true = imageDbl true from funext hi]

theorem FWRITE_32_none (big : Bool) (arr : List W32) (stride : ℕ) (h : arr.length < stride) :
    FWRITE_32 big arr stride = none := by
  cases big
  · have : bswap_32 stride arr = none := by rw [bswap_32, bswap_spec, if_neg (by omega)]
    simp [FWRITE_32, this]
  · simp [FWRITE_32, Nat.not_le.2 h]

theorem FWRITE_64_none (big : Bool) (arr : List W64) (stride : ℕ) (h : arr.length < stride) :
    FWRITE_64 big arr stride = none := by
  cases big
  · have : bswap_64 stride arr = none := by rw [bswap_64, bswap_spec, if_neg (by omega)]
    simp [FWRITE_64, this]
  · simp [FWRITE_64, Nat.not_le.2 h]

/-- The reader takes exactly these bytes and returns `x`. -/
def Reads {α : Type} (p : List Byte → Option (α × List Byte)) (b : List Byte) (x : α) : Prop :=
  ∀ r, p (b ++ r) = some (x, r)

theorem reads_nat32 (w : W32) : Reads (readNat 4) (imageInt true w) w.toNat := by
  intro r
  have hl := imageInt_length true w
  rw [readNat, if_pos (by simp [hl]), List.take_left' hl, List.drop_left' hl, bigEndian_int]

theorem reads_double (w : W64) : Reads readDouble (imageDbl true w) w := by
  intro r
  have hl := imageDbl_length true w
  rw [readDouble, readNat, if_pos (by simp [hl]), List.take_left' hl, List.drop_left' hl, bigEndian_dbl]
  simp

theorem reads_int (z : ℤ) (h : -2 ^ 31 ≤ z) (h' : z < 2 ^ 31) :
    Reads readInt (imageInt true (BitVec.ofInt 32 z)) z := by
  intro r
  rw [readInt, reads_nat32, BitVec.toNat_ofInt, Option.map_some]
  have h2 : ((2 ^ 32 : ℕ) : ℤ) = 4294967296 := by norm_num
  rw [h2]
  have h3 : (if (z % 4294967296).toNat < 2 ^ 31 then (((z % 4294967296).toNat : ℕ) : ℤ)
      else (((z % 4294967296).toNat : ℕ) : ℤ) - 2 ^ 32) = z := by
    split <;> omega
  exact congrArg (fun t => some (t, r)) h3

theorem reads_count (n : ℕ) (h : n < 2 ^ 32) : Reads (readNat 4) (imageInt true (BitVec.ofNat 32 n)) n := by
  have := reads_nat32 (BitVec.ofNat 32 n)
  rwa [BitVec.toNat_ofNat, Nat.mod_eq_of_lt h] at this

theorem reads_many {α β : Type} {p : List Byte → Option (α × List Byte)} (f : β → List Byte) (g : β → α)
    (l : List β) (h : ∀ x ∈ l, Reads p (f x) (g x)) : Reads (readMany p l.length) (l.flatMap f) (l.map g) := by
  induction l with
  | nil => intro r; rfl
  | cons x l ih =>
    intro r
    rw [List.flatMap_cons, List.append_assoc, List.length_cons, readMany, h x (by simp),
      ]
    simp only
    rw [ih (fun y hy => h y (by simp [hy]))]
    rfl

theorem reads_array {α β : Type} {p : List Byte → Option (α × List Byte)} (f : β → List Byte) (g : β → α)
    (l : List β) (n : ℕ) (hn : n = l.length) (hlen : n < 2 ^ 32) (h : ∀ x ∈ l, Reads p (f x) (g x)) :
    Reads (readArray p) (imageInt true (BitVec.ofNat 32 n) ++ l.flatMap f) (l.map g) := by
  intro r
  rw [readArray, List.append_assoc, reads_count n hlen]
  subst hn
  exact reads_many f g l h r

theorem reads_both {α β : Type} {p : List Byte → Option (α × List Byte)} {q : List Byte → Option (β × List Byte)}
    {a b : List Byte} {x : α} {y : β} (h : Reads p a x) (h' : Reads q b y) :
    Reads (readBoth p q) (a ++ b) (x, y) := by
  intro r
  rw [readBoth, List.append_assoc, h]
  simp only
  rw [h']
  rfl

theorem reads_doubles (l : List W64) (n : ℕ) (hn : n = l.length) (hlen : n < 2 ^ 32) :
    Reads readDoubles (imageInt true (BitVec.ofNat 32 n) ++ l.flatMap (imageDbl true)) l := by
  have := reads_array (p := readDouble) (imageDbl true) id l n hn hlen (fun x _ => reads_double x)
  rwa [List.map_id] at this

theorem flat_pairs {β : Type} (f : W64 → List β) (l : List (W64 × W64)) :
    (l.flatMap fun z => [z.1, z.2]).flatMap f = l.flatMap fun z => f z.1 ++ f z.2 := by
  induction l with
  | nil => rfl
  | cons z l ih => simp [ih]

theorem reads_complexes (l : List (W64 × W64)) (n : ℕ) (hn : n = l.length) (hlen : n < 2 ^ 32) :
    Reads (readArray readComplex) (imageInt true (BitVec.ofNat 32 n) ++
      (l.flatMap fun z => [z.1, z.2]).flatMap (imageDbl true)) l := by
  rw [flat_pairs]
  have hz : ∀ z : W64 × W64, Reads readComplex (imageDbl true z.1 ++ imageDbl true z.2) (id z) :=
    fun z => reads_both (reads_double z.1) (reads_double z.2)
  have := reads_array (fun z : W64 × W64 => imageDbl true z.1 ++ imageDbl true z.2) id l n hn hlen
    (fun z _ => hz z)
  rw [List.map_id] at this
  exact this

theorem streams_nat (k : ℕ) : Streams (readNat k) := by
  intro f x r h g
  unfold readNat at h ⊢
  split at h
  · rename_i hk
    obtain ⟨h1, h2⟩ := Prod.mk.inj (Option.some.inj h)
    rw [if_pos (by simp; omega), List.take_append_of_le_length hk, List.drop_append_of_le_length hk, h1, h2]
  · cases h

theorem streams_map {α β : Type} {p : List Byte → Option (α × List Byte)} (F : α → β) (h : Streams p) :
    Streams fun f => (p f).map fun (n, r) => (F n, r) := by
  intro f x r hp g
  simp only at hp ⊢
  rw [Option.map_eq_some_iff] at hp
  obtain ⟨⟨y, s⟩, hy, he⟩ := hp
  obtain ⟨h1, h2⟩ := Prod.mk.inj he
  rw [h f y s hy g]
  simp [← h1, ← h2]

theorem streams_int : Streams readInt :=
  streams_map (fun n : ℕ => if n < 2 ^ 31 then (n : ℤ) else (n : ℤ) - 2 ^ 32) (streams_nat 4)

theorem streams_double : Streams readDouble := streams_map (BitVec.ofNat 64) (streams_nat 8)

theorem streams_many {α : Type} {p : List Byte → Option (α × List Byte)} (h : Streams p) (n : ℕ) :
    Streams (readMany p n) := by
  induction n with
  | zero =>
    intro f x r hp g
    obtain ⟨h1, h2⟩ := Prod.mk.inj (Option.some.inj hp)
    simp [readMany, h1, ← h2]
  | succ n ih =>
    intro f x r hp g
    rw [readMany] at hp ⊢
    cases h1 : p f with
    | none => rw [h1] at hp; cases hp
    | some y =>
      obtain ⟨y, s⟩ := y
      rw [h1] at hp
      rw [h f y s h1 g]
      simp only at hp ⊢
      rw [Option.map_eq_some_iff] at hp
      obtain ⟨⟨l, t⟩, hy, he⟩ := hp
      obtain ⟨h2, h3⟩ := Prod.mk.inj he
      rw [ih _ _ _ hy g]
      simp [← h2, ← h3]

theorem streams_array {α : Type} {p : List Byte → Option (α × List Byte)} (h : Streams p) :
    Streams (readArray p) := by
  intro f x r hp g
  rw [readArray] at hp ⊢
  cases h1 : readNat 4 f with
  | none => rw [h1] at hp; cases hp
  | some y =>
    obtain ⟨y, s⟩ := y
    rw [h1] at hp
    rw [streams_nat 4 f y s h1 g]
    exact streams_many h _ _ _ _ hp g

theorem streams_both {α β : Type} {p : List Byte → Option (α × List Byte)} {q : List Byte → Option (β × List Byte)}
    (h : Streams p) (h' : Streams q) : Streams (readBoth p q) := by
  intro f x r hp g
  rw [readBoth] at hp ⊢
  cases h1 : p f with
  | none => rw [h1] at hp; cases hp
  | some y =>
    obtain ⟨y, s⟩ := y
    rw [h1] at hp
    rw [h f y s h1 g]
    simp only at hp ⊢
    rw [Option.map_eq_some_iff] at hp
    obtain ⟨⟨l, t⟩, hy, he⟩ := hp
    obtain ⟨h2, h3⟩ := Prod.mk.inj he
    rw [h' _ _ _ hy g]
    simp [← h2, ← h3]

/-- A file that is read completely is not readable when its end is missing. -/
theorem cut_unreadable {α : Type} {p : List Byte → Option (α × List Byte)} (hs : Streams p)
    {b : List Byte} {x : α} (h : Reads p b x) (n : ℕ) (hn : n < b.length) : readFile p (b.take n) = none := by
  unfold readFile
  split
  · rename_i y heq
    have h1 := hs _ _ _ heq (b.drop n)
    have h2 := h []
    rw [List.take_append_drop] at h1
    rw [List.append_nil, h1] at h2
    have := (Prod.mk.inj (Option.some.inj h2)).2
    rw [List.nil_append, List.drop_eq_nil_iff] at this
    omega
  · rfl

theorem file_of_reads {α : Type} {p : List Byte → Option (α × List Byte)} {b : List Byte} {x : α}
    (h : Reads p b x) : readFile p b = some x := by
  have := h []
  rw [List.append_nil] at this
  rw [readFile, this]

end GLU.Cuts
