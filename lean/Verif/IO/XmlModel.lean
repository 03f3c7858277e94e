import Verif.IO.LimeModel

/-!
# The XML text of SciDAC and ILDG records: model

`src/IO/XML_info.c` and the header writers of `src/IO/Scidac.c`. The parser works on the tokens
into which `strtok( . , "<>" )` cuts the text.
-/

namespace GLU.IO

/-- The non-empty pieces into which `strtok` cuts a text at the characters satisfying `p`; `cur` is
the piece being read. -/
def tokensFrom (p : Char → Bool) : Str → Str → List Str
  | cur, [] => if cur = [] then [] else [cur]
  | cur, c :: s =>
    if p c then (if cur = [] then tokensFrom p [] s else cur :: tokensFrom p [] s)
    else tokensFrom p (cur ++ [c]) s

/-- `strtok( s , "<>" )`, `strtok( 0 , "<>" )`, ... -/
def xmlTokens (s : Str) : List Str := tokensFrom (fun c => c == '<' || c == '>') [] s

/-- `strtok( s , " " )`, `strtok( 0 , " " )`, ... -/
def words (s : Str) : List Str := tokensFrom (fun c => c == ' ') [] s

/-- `realFront`, `XML_info.c:34`. -/
def realFront (s : Str) : Str := s.dropWhile fun c => c == ' ' || c == '\t'

/-- `strtol( s , &end , 10 )` before clamping; `none`: no digits. -/
def strtol (s : Str) : Option ℤ :=
  let p := s.dropWhile isspace
  let neg := p.head? = some '-'
  let p := if p.head? = some '-' ∨ p.head? = some '+' then p.tail else p
  let l := digitsOf 10 p
  if l = [] then none else some (if neg then -(value 10 l : ℤ) else value 10 l)

/-- Does the number fit a `long`? -/
def isLong (z : ℤ) : Bool := -2 ^ 63 ≤ z && z < 2 ^ 63

/-- The value returned by `strtol`: zero without digits, clamped to the range of `long`. -/
def strtolVal (s : Str) : ℤ := max (-2 ^ 63) (min (2 ^ 63 - 1) ((strtol s).getD 0))

/-- Conversion of a signed number to `size_t`. -/
def toSize (z : ℤ) : ℕ := (z % 2 ^ 64).toNat

/-- `get_int_tag`, `XML_info.c:38-55`: the value and the tokens left. The conversion to `int` wraps
(as with gcc). A token that is not a number, or out of range, gives `GLU_FAILURE`, that is `-1`. -/
def get_int_tag (tag : Str) : ℤ → List Str → ℤ × List Str
  | v, [] => (v, [])
  | v, t :: l =>
    if ('/' :: tag).isPrefixOf t then (v, l)
    else match strtol (realFront t) with
      | none => (-1, l)
      | some z => if isLong z then get_int_tag tag (z.bmod (2 ^ 32)) l else (-1, l)

/-- The loop of `get_prec_tag`, `XML_info.c:66-69`: the last text before the closing tag. It is
copied into eight bytes. -/
def prec_loop (tag : Str) : Str → List Str → Out (Str × List Str)
  | v, [] => .ok (v, [])
  | v, t :: l =>
    if ('/' :: tag).isPrefixOf t then .ok (v, l)
    else if 8 ≤ t.length then .ub else prec_loop tag t l

/-- `get_prec_tag`, `XML_info.c:58-76`: double precision?, or `none` for `GLU_FAILURE`. -/
def get_prec_tag (tag : Str) (l : List Str) : Out (Option Bool × List Str) :=
  (prec_loop tag (chars "00") l).bind fun (prec, l) =>
  .ok (if prec = chars "F" then some false
    else if prec = chars "D" then some true
    else
      let sd := (strtolVal (realFront prec)).bmod (2 ^ 32)
      if sd = 32 then some false else if sd = 64 then some true else none, l)

/-- The part of `HEAD_DATA` and `Latt` the parser sets. -/
structure Xml where
  double : Bool
  ncxnc : Bool
  big : Bool
  checksum : W32
  dims : ℕ → ℕ

/-- The dimensions, `XML_info.c:184-193`, from the `idx`-th word; beyond `ND` they are stored
outside `Latt.dims`. Simplified: after a word `/dims` the code would go on parsing, here the
text ends. -/
def set_dims (ND : ℕ) : ℕ → List Str → (ℕ → ℕ) → Out (ℕ → ℕ)
  | _, [], d => .ok d
  | idx, w :: ws, d =>
    if 0 < idx ∧ w = chars "/dims" then .ok d
    else if ND ≤ idx then .ub
    else set_dims ND (idx + 1) ws (Function.update d idx (toSize (strtolVal w)))

/-- The loop at `XML_info.c:202-205`: `sscanf` with `%x` into the checksum. -/
def suma_loop : W32 → List Str → Out (W32 × List Str)
  | c, [] => .ok (c, [])
  | c, t :: l =>
    if t = chars "/suma" then .ok (c, l)
    else (sscanf 16 32 t).bind fun r =>
      suma_loop (match r with | none => c | some v => BitVec.ofNat 32 v) l

/-- `search`, `XML_info.c:95-105`. -/
def search (ND mu : ℕ) : Str :=
  if mu + 1 < ND then
    (if mu = 0 then chars "lx" else if mu = 1 then chars "ly" else if mu = 2 then chars "lz"
      else if mu = 3 then chars "lt" else 'l' :: decimal mu)
  else chars "lt"

/-- The loop at `XML_info.c:216-223` over the directions in `mus`; the `continue` at 221 only
continues this loop. -/
def geometry (ND : ℕ) (t : Str) : List ℕ → List Str → (ℕ → ℕ) → List Str × (ℕ → ℕ)
  | [], l, d => (l, d)
  | mu :: mus, l, d =>
    if t = search ND mu then
      let r := get_int_tag (search ND mu) 0 l
      geometry ND t mus r.2 (if r.1 ≠ 0 then Function.update d mu (toSize r.1) else d)
    else geometry ND t mus l d

/-- The loop at `XML_info.c:228-241`: `none` is the failure at 239. The name is built in ten bytes
(`232-233`). -/
def field_loop (NC : ℕ) : Bool → List Str → Out (Bool × Option (List Str))
  | b, [] => .ok (b, some [])
  | b, t :: l =>
    if t = chars "/field" then .ok (b, some l)
    else
      let compare := chars "su" ++ decimal NC ++ chars "gauge"
      if 10 ≤ compare.length then .ub
      else if compare.take 8 = (realFront t).take 8 then field_loop NC true l
      else .ok (b, none)

/-- The inner loop, `XML_info.c:110-245`. `fuel` is the number of tokens; every round uses at least
one. The result tells success from `GLU_FAILURE`. -/
def xml_loop (ND NC : ℕ) : ℕ → List Str → Xml → Out (Bool × Xml)
  | 0, _, x => .ok (true, x)
  | _ + 1, [], x => .ok (true, x)
  | fuel + 1, t :: l, x =>
    if t = chars "/scidacRecord" ∨ t = chars "/scidacFile" ∨ t = chars "/ildgFormat" then .ok (true, x)
    else if t = chars "spacetime" then
      let r := get_int_tag (chars "spacetime") 0 l
      if r.1 ≠ 0 ∧ r.1 ≠ ND then .ok (false, x) else xml_loop ND NC fuel r.2 x
    else if t = chars "colors" then
      let r := get_int_tag (chars "colors") 0 l
      if r.1 ≠ 0 ∧ r.1 ≠ NC then .ok (false, x) else xml_loop ND NC fuel r.2 x
    else if t = chars "typesize" then
      let r := get_int_tag (chars "typesize") 0 l
      if r.1 ≠ 0 then
        if r.1 = (2 * ND * (NC * NC) : ℕ) then
          xml_loop ND NC fuel r.2 { x with ncxnc := true, double := false }
        else if r.1 = (4 * ND * (NC * NC) : ℕ) then
          xml_loop ND NC fuel r.2 { x with ncxnc := true, double := true }
        else .ok (false, { x with ncxnc := true })
      else xml_loop ND NC fuel r.2 x
    else if t = chars "precision" then
      (get_prec_tag (chars "precision") l).bind fun (p, l) =>
      match p with
      | some d => xml_loop ND NC fuel l { x with double := d }
      | none => xml_loop ND NC fuel l x
    else if t = chars "dims" then
      match l with
      | [] => .ok (true, x)
      | c :: _ =>
        if words c = [] then .ok (false, x)
        else (set_dims ND 0 (words c) x.dims).bind fun d => .ok (true, { x with dims := d })
    else if t = chars "suma" then
      (suma_loop x.checksum l).bind fun (c, l) => xml_loop ND NC fuel l { x with checksum := c }
    else if t = chars "field" then
      (field_loop NC x.ncxnc l).bind fun (b, r) =>
      match r with
      | none => .ok (false, { x with ncxnc := b })
      | some l => xml_loop ND NC fuel l { x with ncxnc := b }
    else
      let r := geometry ND t (List.range ND) l x.dims
      xml_loop ND NC fuel r.1 { x with dims := r.2 }

/-- `parse_and_set_xml_SCIDAC`, `XML_info.c:79-249`: a text without tokens is passed to `strncmp`
as a null pointer; one not starting with `?xml` is ignored; otherwise the root element is skipped
(`109`) and the rest parsed. -/
def parse_and_set_xml_SCIDAC (ND NC : ℕ) (text : Str) (x : Xml) : Out (Bool × Xml) :=
  let x := { x with big := true }
  match xmlTokens text with
  | [] => .ub
  | t :: l =>
    if ¬ (chars "?xml").isPrefixOf t then .ok (true, x)
    else xml_loop ND NC l.tail.length l.tail x

/-- The characters of a C string held by some bytes. -/
def ofBytes (l : List Byte) : Str := cstr (l.map fun b => Char.ofNat b.toNat)

/-- The treatment of a record by `parse_SCIDAC_hdr` (`Scidac.c:116-134`): the result of the XML
parser is ignored. The two BQCD records are not modelled; they count as failure here. -/
def handle_xml (ND NC : ℕ) (x : Xml) (field text : List Byte) : Out Xml :=
  if typeIs field (ascii (chars "bqcd-plaquette")) || typeIs field (ascii (chars "bqcd-cksum"))
  then .fail
  else (parse_and_set_xml_SCIDAC ND NC (ofBytes text) x).bind fun r => .ok r.2

/-! ### The writers -/

/-- `Scidac.c:218`. -/
def xmlStart : Str := chars "<?xml version=\"1.0\" encoding=\"UTF-8\"?>"

/-- The list of dimensions, `Scidac.c:228-234`. -/
def dimsText (ND : ℕ) (dims : ℕ → ℕ) : Str :=
  ((List.range (ND - 1)).flatMap fun mu => decimal (dims mu) ++ [' ']) ++ decimal (dims (ND - 1))

/-- The first record of a SciDAC (`close` is `</scidacFile>`, `Scidac.c:218-235`) or ILDG file
(`</ScidacFile>`, `306-320`). -/
def fileText (ND : ℕ) (dims : ℕ → ℕ) (close : Str) : Str :=
  xmlStart ++ chars "<scidacFile><version>1.1</version><spacetime>" ++ decimal ND ++
    chars "</spacetime><dims>" ++ dimsText ND dims ++ chars "</dims><volfmt>0</volfmt>" ++ close

/-- The third record, `Scidac.c:245-263` and `329-347`. `single` is the build option
`SINGLE_PREC`. -/
def recordText (single : Bool) (ND NC : ℕ) (date : Str) : Str :=
  xmlStart ++ chars "<scidacRecord><version>1.0</version><date>" ++ date ++
    chars " GMT</date><globaldata>0</globaldata>" ++
    (if single then chars "<datatype>QDP_F" ++ decimal NC ++
        chars "_ColorMatrix</datatype><precision>F</precision>"
      else chars "<datatype>QDP_D" ++ decimal NC ++
        chars "_ColorMatrix</datatype><precision>D</precision>") ++
    chars "<colors>" ++ decimal NC ++ chars "</colors><typesize>" ++
    decimal (ND * (NC * NC) * 2 * (if single then 1 else 2)) ++
    chars "</typesize><datacount>" ++ decimal ND ++ chars "</datacount></scidacRecord>"

/-- The records of `write_header_SCIDAC` before the header of the links, `Scidac.c:214-271`. -/
def scidacRecords (single : Bool) (ND NC : ℕ) (dims : ℕ → ℕ) (date : Str) :
    List (List Byte × List Byte) :=
  [(ascii (chars "scidac-private-file-xml"),
      ascii (fileText ND dims (chars "</scidacFile>"))),
    (ascii (chars "scidac-file-xml"),
      ascii (chars "<title>GLU SCIDAC archival gauge configuration</title>")),
    (ascii (chars "scidac-private-record-xml"), ascii (recordText single ND NC date)),
    (ascii (chars "scidac-record-xml"),
      ascii (chars "<info>GLU library configuration file</info>"))]

/-- The length declared for the links, `Scidac.c:275-276` and `393`. -/
def declared (single : Bool) (ND NC volume : ℕ) : ℕ :=
  (if !single then 8 else 4) * volume * ND * (NC * NC) * 2

/-- `write_header_SCIDAC`, `Scidac.c:214-279`. -/
def write_header_SCIDAC (single big : Bool) (ND NC : ℕ) (dims : ℕ → ℕ) (volume : ℕ) (date : Str) :
    Out (List Byte) :=
  (write_records big (scidacRecords single ND NC dims date)).bind fun w =>
  (write_SCIDAC_binary big [] (declared single ND NC volume) scidacBinary).bind fun h => .ok (w ++ h)

/-- The text of the trailing record, `Scidac.c:287-293`. -/
def checksumText (cksuma cksumb : W32) : Str :=
  chars "<?xml version=\"1.0\" encoding=\"UTF-8\"?><scidacChecksum>" ++
    chars "<version>1.0</version><suma>" ++ hexadecimal cksuma.toNat ++ chars "</suma><sumb>" ++
    hexadecimal cksumb.toNat ++ chars "</sumb></scidacChecksum>"

/-- `write_trailing_header_SCIDAC`, `Scidac.c:282-297`. -/
def write_trailing_header_SCIDAC (big : Bool) (cksuma cksumb : W32) : Out (List Byte) :=
  write_records big [(ascii (chars "scidac-checksum"), ascii (checksumText cksuma cksumb))]

/-- The geometry of the ILDG record, `Scidac.c:372-384`. -/
def geometryText (ND : ℕ) (dims : ℕ → ℕ) : Str :=
  ((List.range (ND - 1)).flatMap fun mu =>
    if mu = 0 then chars "<lx>" ++ decimal (dims mu) ++ chars "</lx>"
    else if mu = 1 then chars "<ly>" ++ decimal (dims mu) ++ chars "</ly>"
    else if mu = 2 then chars "<lz>" ++ decimal (dims mu) ++ chars "</lz>"
    else if mu = 3 then chars "<lt>" ++ decimal (dims mu) ++ chars "</lt>"
    else chars "<l" ++ decimal mu ++ chars ">" ++ decimal (dims mu) ++ chars "</l" ++ decimal mu ++
      chars ">") ++
  chars "<lt>" ++ decimal (dims (ND - 1)) ++ chars "</lt>"

/-- The ILDG format record, `Scidac.c:357-384`. -/
def ildgText (single : Bool) (ND : ℕ) (dims : ℕ → ℕ) : Str :=
  chars "<?xml version=\"1.0\" encoding=\"UTF-8\"?>" ++
  chars "<ildgFormat xmlns=\"http://www.lqcd.org/ildg\" xmlns:xsi=\"" ++
  chars "http://www.w3.org/2001/XMLSchema-instance\" xsi:" ++
  chars "schemaLocation=\"http://www.lqcd.org/ildg/filefmt.xsd\">" ++
  chars "<version>1.0</version>" ++
  (if single then chars "<field>su3gauge</field><precision>32</precision>"
    else chars "<field>su3gauge</field><precision>64</precision>") ++
  geometryText ND dims ++ chars "</ildgFormat>"

/-- The records of `write_header_ILDG` before the header of the links, `Scidac.c:301-389`. -/
def ildgRecords (single : Bool) (ND NC : ℕ) (dims : ℕ → ℕ) (date : Str) :
    List (List Byte × List Byte) :=
  [(ascii (chars "scidac-private-file-xml"),
      ascii (fileText ND dims (chars "</ScidacFile>"))),
    (ascii (chars "scidac-file-xml"),
      ascii (chars "<title>GLU ILDG archival gauge configuration</title>")),
    (ascii (chars "scidac-private-record-xml"), ascii (recordText single ND NC date)),
    (ascii (chars "scidac-record-xml"),
      ascii (chars "<info>GLU library configuration file</info>")),
    (ascii (chars "ildg-format"), ascii (ildgText single ND dims)),
    (ascii (chars "ildg-data-lfn"), ascii (chars "lfn://"))]

/-- `write_header_ILDG`, `Scidac.c:301-396`. -/
def write_header_ILDG (single big : Bool) (ND NC : ℕ) (dims : ℕ → ℕ) (volume : ℕ) (date : Str) :
    Out (List Byte) :=
  (write_records big (ildgRecords single ND NC dims date)).bind fun w =>
  (write_SCIDAC_binary big [] (declared single ND NC volume) ildgBinary).bind fun h => .ok (w ++ h)

end GLU.IO
