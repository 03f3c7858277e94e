import Verif.IO.MilcHdrModel
import Verif.IO.CfgProps

/-! # C45: the MILC header -/

namespace GLU.IO

/-- The bytes of a 32-bit integer in a file. -/
def imageInt (outBig : Bool) (w : W32) : List Byte := image flt outBig w

theorem memInt_swap (outBig big : Bool) (w : W32) :
    memInt big (if outBig != big then SwapByteOrder_32 w else w) = imageInt outBig w := by
  have h := mem_swap_for_output flt_lawful outBig big w
  cases outBig <;> cases big <;> exact h

theorem imageInt_length (outBig : Bool) (w : W32) : (imageInt outBig w).length = 4 :=
  image_length flt_lawful outBig w

theorem ofMemInt_memInt (big : Bool) (w : W32) : ofMemInt big (memInt big w) = w := by
  have h := flt_lawful.ofBytes_bytes w
  cases big
  · exact h
  · refine Eq.trans ?_ h
    exact congrArg flt.ofBytes (List.reverse_reverse (flt.bytes w))

theorem swap_and_write_int_eq (outBig big : Bool) (l : List W32) :
    swap_and_write_int outBig big l = l.flatMap (imageInt outBig) := by
  unfold swap_and_write_int
  congr 1
  funext w
  exact memInt_swap outBig big w

theorem ofMem_image (outBig big : Bool) (w : W32) :
    ofMemInt big (imageInt outBig w) = if outBig != big then SwapByteOrder_32 w else w := by
  rw [← memInt_swap outBig big, ofMemInt_memInt]

theorem fread_ints_image (outBig big : Bool) (l : List W32) (rest : List Byte) :
    fread_ints big l.length (l.flatMap (imageInt outBig) ++ rest)
      = .ok (l.map fun w => if outBig != big then SwapByteOrder_32 w else w, rest) := by
  induction l with
  | nil => rfl
  | cons w l ih =>
    have hl : (imageInt outBig w).length = 4 := imageInt_length outBig w
    rw [List.length_cons, fread_ints, List.flatMap_cons, List.append_assoc,
      if_pos (by simp [hl]), List.take_left' hl, List.drop_left' hl, ih, ofMem_image]
    rfl

theorem fread_one (outBig big : Bool) (w : W32) (rest : List Byte) :
    fread_ints big 1 (imageInt outBig w ++ rest)
      = .ok ([if outBig != big then SwapByteOrder_32 w else w], rest) := by
  simpa using fread_ints_image outBig big [w] rest

theorem flt_swap_swap (w : W32) : SwapByteOrder_32 (SwapByteOrder_32 w) = w := by
  have h1 := memInt_swap true false w
  have h2 := memInt_swap true false (SwapByteOrder_32 w)
  have h3 := ofMem_image true true w
  have h4 : imageInt true w = (memInt false w).reverse := rfl
  have h5 : imageInt true (SwapByteOrder_32 w) = (memInt false (SwapByteOrder_32 w)).reverse := rfl
  rw [h5] at h2
  simp only [Bool.true_bne, Bool.not_false, if_true] at h1 h2
  rw [h1, h4, List.reverse_reverse] at h2
  have := congrArg (ofMemInt false) h2
  rwa [ofMemInt_memInt, ofMemInt_memInt] at this

/-- A MILC header written by any build on any machine is accepted on any machine and gives back
byte order, dimensions, precision and both checksums, whatever is in the date buffer; the file is
left at the data. -/
theorem C45_milc (single outBig big big' : Bool) (ND : ℕ) (dims : ℕ → ℕ)
    (hd : ∀ mu < ND, dims mu < 2 ^ 31) (str : List Byte) (hs : str.length = 64) (s29 s31 : W32)
    (rest : List Byte) :
    get_header_data_MILC big' ND (write_header_MILC single outBig big ND dims str s29 s31 ++ rest)
      = .ok (⟨outBig, (List.range ND).map dims, !single, s29, s31⟩, rest) := by
  have hw : write_header_MILC single outBig big ND dims str s29 s31 ++ rest
      = imageInt outBig (if single then 20103#32 else 20104#32) ++
        (((List.range ND).map fun i => BitVec.ofNat 32 (dims i)).flatMap (imageInt outBig) ++
        (str ++ (imageInt outBig 0#32 ++ (imageInt outBig s29 ++ (imageInt outBig s31 ++ rest)))))
      := by
    unfold write_header_MILC
    simp only [swap_and_write_int_eq, List.flatMap_cons, List.flatMap_nil, List.append_nil,
      List.append_assoc]
  have hN : ((List.range ND).map fun i => BitVec.ofNat 32 (dims i)).length = ND := by simp
  have hr := fread_ints_image outBig big' ((List.range ND).map fun i => BitVec.ofNat 32 (dims i))
    (str ++ (imageInt outBig 0#32 ++ (imageInt outBig s29 ++ (imageInt outBig s31 ++ rest))))
  rw [hN] at hr
  have hdrop : (str ++ (imageInt outBig 0#32 ++ (imageInt outBig s29 ++ (imageInt outBig s31
      ++ rest)))).drop 64 = imageInt outBig 0#32 ++ (imageInt outBig s29 ++
        (imageInt outBig s31 ++ rest)) := List.drop_left' hs
  have hlen : ¬ (str ++ (imageInt outBig 0#32 ++ (imageInt outBig s29 ++ (imageInt outBig s31
      ++ rest)))).length < 64 := by simp [hs]
  have hdims : ∀ i ∈ List.range ND, ((BitVec.ofNat 32 (dims i)).signExtend 64).toNat = dims i := by
    intro i hi
    have h := hd i (List.mem_range.1 hi)
    rw [BitVec.toNat_signExtend, BitVec.toNat_setWidth, BitVec.toNat_ofNat]
    have hm : (BitVec.ofNat 32 (dims i)).msb = false := by
      rw [BitVec.msb_eq_decide]; simp; omega
    rw [hm]
    simp
    omega
  have hmap : ∀ fix : W32 → W32, (∀ w, fix (if outBig != big' then SwapByteOrder_32 w else w) = w) →
      (((List.range ND).map fun i => BitVec.ofNat 32 (dims i)).map fun w =>
        if outBig != big' then SwapByteOrder_32 w else w).map (fun w => ((fix w).signExtend 64).toNat)
        = (List.range ND).map dims := by
    intro fix hfix
    rw [List.map_map, List.map_map]
    apply List.map_congr_left
    intro i hi
    simp only [Function.comp, hfix]
    exact hdims i hi
  have hend : (if outBig != big' then !big' else big') = outBig := by
    cases outBig <;> cases big' <;> rfl
  rw [hw]
  unfold get_header_data_MILC
  rw [fread_one]
  simp only [Out.bind, List.headD_cons]
  cases hn : (outBig != big')
  · rw [hn] at hr hmap hend
    simp only [Bool.false_eq_true, if_false] at hr hmap hend
    have hu : ((if single then 20103#32 else 20104#32) == 20103#32 ||
        (if single then 20103#32 else 20104#32) == 20104#32) = true := by cases single <;> decide
    have hd : ((if single then 20103#32 else 20104#32) == 20104#32) = !single := by
      cases single <;> decide
    simp only [Bool.false_eq_true, if_false, hu, Bool.not_true, hr, if_neg hlen, hdrop, fread_one,
      hn, List.headD_cons, ne_eq, not_true, hmap (fun w => w) fun _ => rfl]
    rw [hd, hend]
  · rw [hn] at hr hmap hend
    simp only [if_true] at hr hmap hend
    have hu : (SwapByteOrder_32 (if single then 20103#32 else 20104#32) == 20103#32 ||
        SwapByteOrder_32 (if single then 20103#32 else 20104#32) == 20104#32) = false := by
      cases single <;> decide
    have hu2 : ((if single then 20103#32 else 20104#32) == 20103#32 ||
        (if single then 20103#32 else 20104#32) == 20104#32) = true := by cases single <;> decide
    have hd : ((if single then 20103#32 else 20104#32) == 20104#32) = !single := by
      cases single <;> decide
    simp only [Bool.false_eq_true, if_true, if_false, hu, hu2, Bool.not_true, Bool.not_false, hr,
      if_neg hlen, hdrop, fread_one, flt_swap_swap,
      hn, List.headD_cons, ne_eq, not_true,
      hmap SwapByteOrder_32 fun w => flt_swap_swap w]
    rw [hd, hend]

/-- A concrete header, written on a little-endian machine and read on a big-endian one. -/
example : get_header_data_MILC true 4 (write_header_MILC false true false 4 (fun mu => 16 + mu)
    (List.replicate 64 77#8) 0x12345678#32 0x9abcdef0#32 ++ [1#8])
    = .ok (⟨true, [16, 17, 18, 19], true, 0x12345678#32, 0x9abcdef0#32⟩, [1#8]) :=
  C45_milc false true false true 4 _ (fun mu _ => by omega) _ (by simp) _ _ _

/-! ### HiRep and CERN -/

/-- The bytes of a `double` in a file. -/
def imageDbl (outBig : Bool) (w : W64) : List Byte := image dbl outBig w

theorem memDbl_swap (outBig big : Bool) (w : W64) :
    memDbl big (if outBig != big then SwapByteOrder_64 w else w) = imageDbl outBig w := by
  have h := mem_swap_for_output dbl_lawful outBig big w
  cases outBig <;> cases big <;> exact h

theorem imageDbl_length (outBig : Bool) (w : W64) : (imageDbl outBig w).length = 8 :=
  image_length dbl_lawful outBig w

theorem ofMemDbl_memDbl (big : Bool) (w : W64) : ofMemDbl big (memDbl big w) = w := by
  have h := dbl_lawful.ofBytes_bytes w
  cases big
  · exact h
  · refine Eq.trans ?_ h
    exact congrArg dbl.ofBytes (List.reverse_reverse (dbl.bytes w))

theorem dbl_swap_swap (w : W64) : SwapByteOrder_64 (SwapByteOrder_64 w) = w := by
  have h1 := memDbl_swap true false w
  have h2 := memDbl_swap true false (SwapByteOrder_64 w)
  have h4 : imageDbl true w = (memDbl false w).reverse := rfl
  have h5 : imageDbl true (SwapByteOrder_64 w) = (memDbl false (SwapByteOrder_64 w)).reverse := rfl
  rw [h5] at h2
  simp only [Bool.true_bne, Bool.not_false, if_true] at h1 h2
  rw [h1, h4, List.reverse_reverse] at h2
  have := congrArg (ofMemDbl false) h2
  rwa [ofMemDbl_memDbl, ofMemDbl_memDbl] at this

theorem fread_double_image (outBig big : Bool) (w : W64) (rest : List Byte) :
    fread_double big (imageDbl outBig w ++ rest)
      = .ok (if outBig != big then SwapByteOrder_64 w else w, rest) := by
  have hl := imageDbl_length outBig w
  rw [fread_double, if_pos (by simp [hl]), List.take_left' hl, List.drop_left' hl,
    ← memDbl_swap outBig big, ofMemDbl_memDbl]

theorem dim_back (d : ℕ) (h : d < 2 ^ 31) : ((BitVec.ofNat 32 d).signExtend 64).toNat = d := by
  rw [BitVec.toNat_signExtend, BitVec.toNat_setWidth, BitVec.toNat_ofNat]
  have hm : (BitVec.ofNat 32 d).msb = false := by
    rw [BitVec.msb_eq_decide]; simp; omega
  rw [hm]
  simp
  omega

theorem unswap_int (big : Bool) (w : W32) : (if !big then SwapByteOrder_32
    (if true != big then SwapByteOrder_32 w else w) else
    (if true != big then SwapByteOrder_32 w else w)) = w := by
  cases big <;> simp [flt_swap_swap]

/-- A HiRep header written by an `OUT_BIG` build is accepted on any machine and gives back the
dimensions and the plaquette bit for bit. -/
theorem C45_hirep_partial (big big' : Bool) (ND NC : ℕ) (hND : 0 < ND) (hNC : NC < 2 ^ 31)
    (dims : ℕ → ℕ) (hd : ∀ mu < ND, dims mu < 2 ^ 31) (plaq : W64) (rest : List Byte) :
    get_header_data_HIREP big' ND NC (write_header_HIREP true big ND NC dims plaq ++ rest)
      = .ok (((List.range ND).map dims, plaq), rest) := by
  obtain ⟨n, rfl⟩ : ∃ n, ND = n + 1 := ⟨ND - 1, by omega⟩
  have hlen : (BitVec.ofNat 32 NC :: BitVec.ofNat 32 (dims n) ::
    (List.range n).map fun mu => BitVec.ofNat 32 (dims mu)).length = n + 1 + 1 := by simp
  have hr := fread_ints_image true big' (BitVec.ofNat 32 NC :: BitVec.ofNat 32 (dims n) ::
    (List.range n).map fun mu => BitVec.ofNat 32 (dims mu)) (imageDbl true plaq ++ rest)
  rw [hlen] at hr
  unfold get_header_data_HIREP write_header_HIREP
  rw [Nat.add_sub_cancel, swap_and_write_int_eq, memDbl_swap, List.append_assoc, hr]
  simp only [Out.bind, fread_double_image, List.map_map, List.map_cons, Function.comp_def,
    unswap_int]
  have hc : ¬ ((BitVec.ofNat 32 NC).toInt ≠ (NC : ℤ)) := by
    rw [not_not, BitVec.toInt_eq_toNat_cond, BitVec.toNat_ofNat]
    have : NC % 2 ^ 32 = NC := Nat.mod_eq_of_lt (by omega)
    rw [this, if_pos (by omega)]
  rw [List.headD_cons, if_neg hc]
  have hp : (if !big' then SwapByteOrder_64 (if true != big' then SwapByteOrder_64 plaq else plaq)
      else (if true != big' then SwapByteOrder_64 plaq else plaq)) = plaq := by
    cases big' <;> simp [dbl_swap_swap]
  have hdl : (List.range n).map (fun mu => ((BitVec.ofNat 32 (dims mu)).signExtend 64).toNat)
      = (List.range n).map dims :=
    List.map_congr_left fun mu hmu => dim_back _ (hd mu (by have := List.mem_range.1 hmu; omega))
  simp only [List.drop_succ_cons, List.drop_zero, List.take_succ_cons, List.take_zero,
    List.map_append, List.map_map, List.map_cons, List.map_nil, Function.comp_def,
    dim_back _ (hd n (by omega)), hp, hdl, List.range_succ]

/-- The claim fails for `OUT_LITTLE` builds: with three colours and four dimensions their HiRep
header is refused, on every machine. -/
theorem C45_hirep_little_fails (big big' : Bool) (dims : ℕ → ℕ) (plaq : W64) (rest : List Byte) :
    get_header_data_HIREP big' 4 3 (write_header_HIREP false big 4 3 dims plaq ++ rest) = .fail := by
  have hr := fread_ints_image false big' (BitVec.ofNat 32 3 :: BitVec.ofNat 32 (dims 3) ::
    (List.range 3).map fun mu => BitVec.ofNat 32 (dims mu)) (imageDbl false plaq ++ rest)
  rw [show (BitVec.ofNat 32 3 :: BitVec.ofNat 32 (dims 3) ::
    (List.range 3).map fun mu => BitVec.ofNat 32 (dims mu)).length = 4 + 1 by simp] at hr
  unfold get_header_data_HIREP write_header_HIREP
  rw [show (4 - 1 : ℕ) = 3 from rfl, swap_and_write_int_eq, memDbl_swap, List.append_assoc, hr]
  simp only [Out.bind, List.map_cons, List.headD_cons]
  refine if_pos ?_
  cases big' <;> decide

/-- A CERN header written on any machine is accepted on any machine and gives back the dimensions
and the plaquette bit for bit. -/
theorem C45_cern (big big' : Bool) (dims : ℕ → ℕ) (hd : ∀ mu < 4, dims mu < 2 ^ 31) (plaq : W64)
    (rest : List Byte) :
    get_header_data_CERN big' (write_header_CERN big dims plaq ++ rest)
      = .ok (([dims 0, dims 1, dims 2, dims 3], plaq), rest) := by
  have hi : ∀ w : W32, memInt big (if big then SwapByteOrder_32 w else w) = imageInt false w := by
    intro w; have := memInt_swap false big w; cases big <;> exact this
  have hdb : memDbl big (if big then SwapByteOrder_64 plaq else plaq) = imageDbl false plaq := by
    have := memDbl_swap false big plaq; cases big <;> exact this
  have hw : write_header_CERN big dims plaq ++ rest = ([BitVec.ofNat 32 (dims 3),
      BitVec.ofNat 32 (dims 0), BitVec.ofNat 32 (dims 1), BitVec.ofNat 32 (dims 2)].flatMap
        (imageInt false)) ++ (imageDbl false plaq ++ rest) := by
    unfold write_header_CERN
    rw [hdb, List.append_assoc]
    simp only [hi, List.flatMap_cons, List.flatMap_nil]
  have hr := fread_ints_image false big' [BitVec.ofNat 32 (dims 3), BitVec.ofNat 32 (dims 0),
    BitVec.ofNat 32 (dims 1), BitVec.ofNat 32 (dims 2)] (imageDbl false plaq ++ rest)
  have d0 := dim_back _ (hd 0 (by norm_num))
  have d1 := dim_back _ (hd 1 (by norm_num))
  have d2 := dim_back _ (hd 2 (by norm_num))
  have d3 := dim_back _ (hd 3 (by norm_num))
  unfold get_header_data_CERN
  rw [hw]
  rw [show [BitVec.ofNat 32 (dims 3), BitVec.ofNat 32 (dims 0), BitVec.ofNat 32 (dims 1),
    BitVec.ofNat 32 (dims 2)].length = 4 from rfl] at hr
  rw [hr]
  cases big' <;>
    simp [Out.bind, fread_double_image, flt_swap_swap, dbl_swap_swap, d0, d1, d2, d3]

end GLU.IO
