import Verif.Model.TopK
import Verif.Model.Gamma
import Verif.Model.EliasFano
import Verif.Model.Nibble

/-! # `mapper.hpp`: freeze, map, size_of, size_tree_of, and the `map(Visitor&)` members

A visited object is a sequence of fields, each a POD, a `mappable_vector` or a nested object.  `Lay` is
the static shape of such a sequence, `Val` a value of it (every POD and every vector element by its
bytes in memory), `MVal` the object after `map`, whose vectors are pointers into the image.  Products
`m_size * sizeof(T)` are reduced mod `2^64`; the running totals (`m_written`, `m_size`, `m_cur - m_base`)
are unbounded.

Failures of the output stream and the overload for file names are in `OutStream.lean`, `size_node::dump` is in `Dump.lean`. -/
namespace Succinct.Mapper

/-- `char`, as written by `mapper.hpp:73,84` and read by `mapper.hpp:121` -/
abbrev Byte := BitVec 8

/-- little-endian bytes of an unsigned integer of `k` bytes (`mapper.hpp:59,73`: its object representation) -/
def leEnc : Nat → Nat → List Byte
  | 0, _ => []
  | k + 1, x => BitVec.ofNat 8 x :: leEnc k (x / 256)

/-- value of little-endian bytes (`mapper.hpp:107,121`) -/
def leDec : List Byte → Nat
  | [] => 0
  | b :: bs => b.toNat + 256 * leDec bs

/-- two's complement encoding of a signed integer of `k` bytes (elements written by `mapper.hpp:84`) -/
def leEncS (k : Nat) (x : Int) : List Byte := leEnc k (x % (256^k : Nat)).toNat
/-- value of a two's complement little-endian integer (`mappable_vector.hpp:103`) -/
def leDecS (bs : List Byte) : Int := Int.bmod (leDec bs) (256^bs.length)

/-- shape of a sequence of visited fields (the overloads `mapper.hpp:63-88,111-145,168-207`) -/
inductive Lay
  | done
  | pod (name : String) (size : Nat) (rest : Lay)
  | vec (name : String) (esize : Nat) (rest : Lay)
  | obj (name : String) (inner rest : Lay)
deriving DecidableEq, Repr

/-- a sequence of visited fields with their contents (`mapper.hpp:63-88`) -/
inductive Val
  | done
  | pod (name : String) (bytes : List Byte) (rest : Val)
  | vec (name : String) (esize : Nat) (elems : List (List Byte)) (rest : Val)
  | obj (name : String) (inner rest : Val)
deriving DecidableEq, Repr

/-- a sequence of visited fields after `map` (`mapper.hpp:111-145`): a vector is an offset into the image and a length -/
inductive MVal
  | done
  | pod (name : String) (bytes : List Byte) (rest : MVal)
  | vec (name : String) (esize off size : Nat) (rest : MVal)
  | obj (name : String) (inner rest : MVal)
deriving DecidableEq, Repr

/-- the `n` bytes at offset `pos` of a memory area (`mapper.hpp:84,107,121,139`); reading outside it is undefined behaviour -/
def rdBytes (mem : List Byte) (pos n : Nat) : Option (List Byte) :=
  if pos + n ≤ mem.length then some ((mem.drop pos).take n) else none

/-! ## freeze -/

/-- the stream contents and `m_written` of a `freeze_visitor` (`mapper.hpp:95-97`) -/
structure Out where
  bytes : List Byte
  written : Nat
deriving DecidableEq, Repr

/-- `m_fout.write(p, n)` with the counter increment that follows it (`mapper.hpp:59-60,73-74,84-85`) -/
def Out.put (o : Out) (bs : List Byte) (n : Nat) : Out := ⟨o.bytes ++ bs, o.written + n⟩

/-- `mapper.hpp:63-88` applied to every field in order; `sizeof(T)` of a POD is the number of its bytes.
For a vector the element count is written first (`81`), then `m_size * sizeof(T)` bytes starting at
`m_data` (`83-85`). -/
def freezeV : Val → Out → Option Out
  | .done, o => some o
  | .pod _ bs rest, o => freezeV rest (o.put bs bs.length)
  | .vec _ es xs rest, o => do
    let o := o.put (leEnc 8 xs.length) 8
    let n := xs.length * es % 2^64
    let data ← rdBytes xs.flatten 0 n
    freezeV rest (o.put data n)
  | .obj _ inner rest, o => do
    let o ← freezeV inner o
    freezeV rest o

/-- `mapper.hpp:53-61,234-240`: the stream contents and the returned count -/
def freeze (x : Val) (flags : Nat) : Option Out :=
  freezeV x (Out.put ⟨[], 0⟩ (leEnc 8 flags) 8)

/-! ## map -/

/-- the warmup loop `mapper.hpp:138-140`, for the remaining `k` elements -/
def warmup (img : List Byte) (es : Nat) : Nat → Nat → Option Unit
  | 0, _ => some ()
  | k + 1, p => do
    let _ ← rdBytes img p es
    warmup img es k (p + es)

/-- `mapper.hpp:135`: `m_flags & map_flags::warmup` -/
def warmupIf (flags : Word) (img : List Byte) (es n p : Nat) : Option Unit :=
  if flags &&& 1 ≠ 0 then warmup img es n p else some ()

/-- `mapper.hpp:111-145` applied to every field in order; `pos` is `m_cur - m_base` -/
def mapV (flags : Word) (img : List Byte) : Lay → Nat → Option (MVal × Nat)
  | .done, pos => some (.done, pos)
  | .pod name k rest, pos => do
    let bs ← rdBytes img pos k
    let (r, p) ← mapV flags img rest (pos + k)
    pure (.pod name bs r, p)
  | .vec name es rest, pos => do
    let bs ← rdBytes img pos 8
    let size := leDec bs
    let pos := pos + 8
    let bytes := size * es % 2^64
    warmupIf flags img es size pos
    let (r, p) ← mapV flags img rest (pos + bytes)
    pure (.vec name es pos size r, p)
  | .obj name inner rest, pos => do
    let (i, p) ← mapV flags img inner pos
    let (r, p) ← mapV flags img rest p
    pure (.obj name i r, p)

/-- `mapper.hpp:102-109,249-255`: the mapped object and the returned count.  The flags word stored in
the image is read and ignored. -/
def map (l : Lay) (img : List Byte) (flags : Word) : Option (MVal × Nat) := do
  let _ ← rdBytes img 0 8
  mapV flags img l 8

/-- reads `k` elements of `es` bytes from offset `p` on (`mappable_vector.hpp:103`) -/
def loadElems (img : List Byte) (es : Nat) : Nat → Nat → Option (List (List Byte))
  | 0, _ => some []
  | k + 1, p => do
    let b ← rdBytes img p es
    let r ← loadElems img es k (p + es)
    pure (b :: r)

/-- the contents of a mapped object as seen through its pointers (`mappable_vector.hpp:101-104`);
undefined if one of its vectors does not lie inside the image -/
def load (img : List Byte) : MVal → Option Val
  | .done => some .done
  | .pod name bs rest => do
    let r ← load img rest
    pure (.pod name bs r)
  | .vec name es off size rest => do
    let xs ← loadElems img es size off
    let r ← load img rest
    pure (.vec name es xs r)
  | .obj name inner rest => do
    let i ← load img inner
    let r ← load img rest
    pure (.obj name i r)

/-! ## size_of and size_tree_of -/

/-- `mapper.hpp:168-207` without a tree: the new value of `m_size` -/
def sizeV : Val → Nat → Nat
  | .done, s => s
  | .pod _ bs rest, s => sizeV rest (s + bs.length)
  | .vec _ es xs rest, s => sizeV rest (s + 8 + xs.length * es % 2^64)
  | .obj _ inner rest, s => sizeV rest (sizeV inner s)

/-- `mapper.hpp:263-269` -/
def sizeBytes (x : Val) : Nat := sizeV x 0

/-- a list of `size_node`s (`mapper.hpp:30-38`): name, size, children, next in the list -/
inductive Nodes
  | nil
  | cons (name : String) (size : Nat) (children next : Nodes)
deriving DecidableEq, Repr

/-- `mapper.hpp:168-207,220-226` with a tree: the new value of `m_size` and the nodes appended to the
children of `m_cur_size_node`.  Each `size` is `m_size - checkpoint`. -/
def treeV : Val → Nat → Nat × Nodes
  | .done, s => (s, .nil)
  | .pod _ bs rest, s => treeV rest (s + bs.length)
  | .vec name es xs rest, s =>
    let s' := s + 8 + xs.length * es % 2^64
    let (t, ns) := treeV rest s'
    (t, .cons name (s' - s) .nil ns)
  | .obj name inner rest, s =>
    let (s', ch) := treeV inner s
    let (t, ns) := treeV rest s'
    (t, .cons name (s' - s) ch ns)

/-- `mapper.hpp:271-278`: the first child of the unnamed root (name, size and children); the
assertion fails if there is none -/
def sizeTreeOf (x : Val) : Option (String × Nat × Nodes) :=
  match (treeV x 0).2 with
  | .nil => none
  | .cons name size ch _ => some (name, size, ch)

/-! ## the `map(Visitor&)` members

A `Codec` is one such member: it lists the visited fields in order.  `lay` and `put` prepend the fields
to what follows; `get` recovers the object from the fields. -/

/-- a `map(Visitor&)` member (e.g. `bit_vector.hpp:228-232`) -/
structure Codec (α : Type) where
  /-- shape of the visited fields -/
  lay : Lay → Lay
  /-- the visited fields of an object -/
  put : α → Val → Val
  /-- the object holding given fields -/
  get : Val → Option (α × Val)
  /-- every field value is representable in its C++ type -/
  fits : α → Prop

namespace Codec

/-- a POD field of `k` bytes (`mapper.hpp:70-76,118-124,187-193`) -/
def pod {α : Type} (name : String) (k : Nat) (enc : α → List Byte) (dec : List Byte → α) (fits : α → Prop) : Codec α where
  lay r := .pod name k r
  put x r := .pod name (enc x) r
  get v := match v with
    | .pod n bs r => if n = name then some (dec bs, r) else none
    | _ => none
  fits := fits

/-- a `mappable_vector` field with elements of `k` bytes (`mapper.hpp:78-88,126-145,195-207`) -/
def vec {α : Type} (name : String) (k : Nat) (enc : α → List Byte) (dec : List Byte → α) (fits : α → Prop) : Codec (List α) where
  lay r := .vec name k r
  put xs r := .vec name k (xs.map enc) r
  get v := match v with
    | .vec n _ xs r => if n = name then some (xs.map dec, r) else none
    | _ => none
  fits xs := xs.length < 2^60 ∧ ∀ x ∈ xs, fits x

/-- the fields of one object followed by those of another (base class and own fields, `rs_bit_vector.hpp:28`, or
`visit(a)(b)`, `bit_vector.hpp:229-231`) -/
def seq {α β : Type} (c : Codec α) (d : Codec β) : Codec (α × β) where
  lay r := c.lay (d.lay r)
  put x r := c.put x.1 (d.put x.2 r)
  get v := do
    let (a, r) ← c.get v
    let (b, r) ← d.get r
    pure ((a, b), r)
  fits x := c.fits x.1 ∧ d.fits x.2

/-- a field of class type (`mapper.hpp:63-68,111-116,168-185`) -/
def obj {α : Type} (name : String) (c : Codec α) : Codec α where
  lay r := .obj name (c.lay .done) r
  put x r := .obj name (c.put x .done) r
  get v := match v with
    | .obj n i r => if n = name then (c.get i).bind fun p => if p.2 = .done then some (p.1, r) else none else none
    | _ => none
  fits := c.fits

/-- the same fields for another representation of the object (the members listed in e.g. `bit_vector.hpp:525-526`) -/
def iso {α β : Type} (c : Codec α) (mk : α → β) (un : β → α) : Codec β where
  lay := c.lay
  put x := c.put (un x)
  get v := (c.get v).map fun p => (mk p.1, p.2)
  fits x := c.fits (un x)

infixr:60 " ⊳ " => seq

/-- `uint64_t` and `size_t` (e.g. `bit_vector.hpp:525`) -/
def u64 (name : String) : Codec Nat := pod name 8 (leEnc 8) leDec (· < 2^64)
/-- `uint64_t` used as a bit pattern (`elias_fano.hpp:266`) -/
def w64 (name : String) : Codec Word := pod name 8 (fun x => leEnc 8 x.toNat) (fun bs => BitVec.ofNat 64 (leDec bs)) (fun _ => True)
/-- `uint8_t` (`elias_fano.hpp:271`) -/
def u8 (name : String) : Codec Nat := pod name 1 (leEnc 1) leDec (· < 2^8)
/-- `mappable_vector<uint64_t>` (`rs_bit_vector.hpp:187-190`) -/
def vu64 (name : String) : Codec (List Nat) := vec name 8 (leEnc 8) leDec (· < 2^64)
/-- `mappable_vector<uint64_t>` of bit patterns (`bit_vector.hpp:526`) -/
def vw64 (name : String) : Codec (List Word) := vec name 8 (fun x => leEnc 8 x.toNat) (fun bs => BitVec.ofNat 64 (leDec bs)) (fun _ => True)
/-- `mappable_vector<uint16_t>` (`darray.hpp:141`, `darray64.hpp:112`) -/
def vu16 (name : String) : Codec (List Nat) := vec name 2 (leEnc 2) leDec (· < 2^16)
/-- `mappable_vector<int16_t>` (`bp_vector.hpp:98`) -/
def vi16 (name : String) : Codec (List Int) := vec name 2 (leEncS 2) leDecS (fun x => -2^15 ≤ x ∧ x < 2^15)
/-- `mappable_vector<int32_t>` (`bp_vector.hpp:99`) -/
def vi32 (name : String) : Codec (List Int) := vec name 4 (leEncS 4) leDecS (fun x => -2^31 ≤ x ∧ x < 2^31)
/-- `mappable_vector<int64_t>` (`darray.hpp:140`) -/
def vi64 (name : String) : Codec (List Int) := vec name 8 (leEncS 8) leDecS (fun x => -2^63 ≤ x ∧ x < 2^63)

/-- `bit_vector::map`, `bit_vector.hpp:228-232` (members `525-526`) -/
def bitVector : Codec BitVector :=
  iso (u64 "m_size" ⊳ vw64 "m_bits") (fun p => ⟨p.1, p.2⟩) (fun v => (v.size, v.bits))

/-- `rs_bit_vector::map`, `rs_bit_vector.hpp:27-34` (members `188-190`) -/
def rsBitVector : Codec RSBitVector :=
  iso (bitVector ⊳ vu64 "m_block_rank_pairs" ⊳ vu64 "m_select_hints" ⊳ vu64 "m_select0_hints")
    (fun p => ⟨p.1, p.2.1, p.2.2.1, p.2.2.2⟩) (fun v => (v.bv, v.pairs, v.hints, v.hints0))

/-- `bp_vector::map`, `bp_vector.hpp:29-36` (members `97-99`) -/
def bpVector : Codec BpVector :=
  iso (rsBitVector ⊳ u64 "m_internal_nodes" ⊳ vi16 "m_block_excess_min" ⊳ vi32 "m_superblock_excess_min")
    (fun p => ⟨p.1, p.2.1, p.2.2.1, p.2.2.2⟩) (fun v => (v.rs, v.internalNodes, v.blockMin, v.superMin))

/-- `darray::map`, `darray.hpp:58-65` (members `139-142`) -/
def darray : Codec Darray :=
  iso (u64 "m_positions" ⊳ vi64 "m_block_inventory" ⊳ vu16 "m_subblock_inventory" ⊳ vu64 "m_overflow_positions")
    (fun p => ⟨p.1, ⟨p.2.1, p.2.2.1, p.2.2.2⟩⟩) (fun v => (v.positions, v.inv.block, v.inv.subblock, v.inv.overflow))

/-- `darray64::map`, `darray64.hpp:57-64` (members `109-112`) -/
def darray64 : Codec Darray64 :=
  iso (u64 "m_num_ones" ⊳ obj "m_bits" bitVector ⊳ vu64 "m_block_inventory" ⊳ vu16 "m_subblock_inventory")
    (fun p => ⟨p.1, p.2.1, p.2.2.1, p.2.2.2⟩) (fun v => (v.numOnes, v.bits, v.block, v.subblock))

/-- `elias_fano::map`, `elias_fano.hpp:81-90` (members `266-271`) -/
def eliasFano : Codec EliasFano :=
  iso (w64 "m_size" ⊳ obj "m_high_bits" bitVector ⊳ obj "m_high_bits_d1" darray ⊳ obj "m_high_bits_d0" darray ⊳
      obj "m_low_bits" bitVector ⊳ u8 "m_l")
    (fun p => ⟨p.1, p.2.1, p.2.2.1, p.2.2.2.1, p.2.2.2.2.1, p.2.2.2.2.2⟩)
    (fun v => (v.size, v.high, v.d1, v.d0, v.low, v.l))

/-- `elias_fano_list::map`, `elias_fano_list.hpp:58-62` -/
def efList : Codec EFList := iso (obj "m_ef" eliasFano) (fun e => ⟨e⟩) (fun v => v.ef)

/-- `elias_fano_compressed_list::map`, `elias_fano_compressed_list.hpp:62-67` -/
def efCompressedList : Codec EFCompressedList :=
  iso (obj "m_ef" eliasFano ⊳ obj "m_bits" bitVector) (fun p => ⟨p.1, p.2⟩) (fun v => (v.ef, v.bits))

/-- `gamma_vector::map`, `gamma_vector.hpp:60-65` -/
def gammaVector : Codec GammaVec :=
  iso (obj "m_high_bits" darray64 ⊳ obj "m_low_bits" bitVector) (fun p => ⟨p.1, p.2⟩) (fun v => (v.high, v.low))

/-- `gamma_bit_vector::map`, `gamma_bit_vector.hpp:66-71` -/
def gammaBitVector : Codec GammaVec :=
  iso (obj "m_high_bits" darray64 ⊳ obj "m_low_bits" bitVector) (fun p => ⟨p.1, p.2⟩) (fun v => (v.high, v.low))

/-- `cartesian_tree::map`, `cartesian_tree.hpp:150-154` -/
def cartesianTree : Codec CartesianTree := iso (obj "m_bp" bpVector) (fun b => ⟨b⟩) (fun t => t.bp)

/-- `nibble_vector::map`, `nibble_vector.hpp:42-47` (members `64-65`) -/
def nibbleVector : Codec NibbleVector :=
  iso (u64 "m_size" ⊳ vec "m_nibbles" 1 (fun x => [x]) (fun bs => bs.headD 0) (fun _ => True))
    (fun p => ⟨p.1, p.2⟩) (fun v => (v.size, v.nibbles))

/-- `topk_vector::map`, `topk_vector.hpp:169-174`; `c` is the field for the underlying vector -/
def topK {α : Type} (c : Codec (List α)) : Codec (TopK α) :=
  iso (c ⊳ obj "m_cartesian_tree" cartesianTree) (fun p => ⟨p.1, p.2⟩) (fun t => (t.v, t.tree))

end Codec

/-- the visited top-level object (`mapper.hpp:238,253,267,275`) -/
def top {α : Type} (c : Codec α) (name : String) (x : α) : Val := (Codec.obj name c).put x .done
/-- its shape (`mapper.hpp:253`) -/
def topLay {α : Type} (c : Codec α) (name : String) : Lay := (Codec.obj name c).lay .done

end Succinct.Mapper
