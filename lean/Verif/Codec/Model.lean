/-!
# Model of the binary codec between Rust and JavaScript

Sources (all below `crates/vertigo/src/driver_module/js_value/`):
`js_json_struct.rs`, `js_value_struct.rs`, `memory_block.rs`,
`memory_block_read.rs`, `memory_block_write.rs`.

Conventions

* `String` is Lean's `String`, which, as in Rust, is a byte array carrying a proof
  that it is valid UTF-8.
* `f64` is carried as its 64 bits (`f64::to_be_bytes` / `from_be_bytes` are
  bit-preserving; `JsJson`'s `PartialEq` compares `to_bits`,
  js_json_struct.rs:79).
* `HashMap<String, _>` is an association list without duplicate keys, in the
  order in which the map happens to be iterated.  Nothing is assumed about that
  order.
* `i32`/`i64` are Lean's two's complement `Int32`/`Int64`.
* a Rust panic is the explicit outcome `Out.panic`.
* integer arithmetic on `u32` is the wrapping arithmetic of a release build.
-/

namespace Verif.Codec

/-- js_json_struct.rs:60-68, `enum JsJson`. -/
inductive JsJson where
  | tru
  | fls
  | null
  | str (s : String)
  | num (bits : UInt64)
  | list (l : List JsJson)
  | obj (l : List (String × JsJson))
  deriving Repr, Inhabited

/-- js_value_struct.rs:66-84, `enum JsValue`. -/
inductive JsValue where
  | u32 (v : UInt32)
  | i32 (v : Int32)
  | u64 (v : UInt64)
  | i64 (v : Int64)
  | f64 (bits : UInt64)
  | tru
  | fls
  | null
  | undefined
  | vec (bytes : List UInt8)
  | str (s : String)
  | list (l : List JsValue)
  | obj (l : List (String × JsValue))
  | json (j : JsJson)
  deriving Repr, Inhabited

/-! ## Bytes -/

/-- `str::as_bytes`. -/
def strBytes (s : String) : List UInt8 := s.toByteArray.data.toList

/-- `String::from_utf8`. -/
def fromUtf8 (b : List UInt8) : Option String := String.fromUTF8? ⟨b.toArray⟩

/-- `u16::to_be_bytes`. -/
def be16 (v : UInt16) : List UInt8 :=
  [UInt8.ofNat (v.toNat / 2 ^ 8), UInt8.ofNat v.toNat]

/-- `u32::to_be_bytes`. -/
def be32 (v : UInt32) : List UInt8 :=
  [UInt8.ofNat (v.toNat / 2 ^ 24), UInt8.ofNat (v.toNat / 2 ^ 16),
   UInt8.ofNat (v.toNat / 2 ^ 8), UInt8.ofNat v.toNat]

/-- `u64::to_be_bytes`. -/
def be64 (v : UInt64) : List UInt8 :=
  [UInt8.ofNat (v.toNat / 2 ^ 56), UInt8.ofNat (v.toNat / 2 ^ 48),
   UInt8.ofNat (v.toNat / 2 ^ 40), UInt8.ofNat (v.toNat / 2 ^ 32),
   UInt8.ofNat (v.toNat / 2 ^ 24), UInt8.ofNat (v.toNat / 2 ^ 16),
   UInt8.ofNat (v.toNat / 2 ^ 8), UInt8.ofNat v.toNat]

/-- `u16::from_be_bytes`. -/
def ofBe16 (a b : UInt8) : UInt16 := UInt16.ofNat (a.toNat * 2 ^ 8 + b.toNat)

/-- `u32::from_be_bytes`. -/
def ofBe32 (a b c d : UInt8) : UInt32 :=
  UInt32.ofNat (a.toNat * 2 ^ 24 + b.toNat * 2 ^ 16 + c.toNat * 2 ^ 8 + d.toNat)

/-- `u64::from_be_bytes`. -/
def ofBe64 (a b c d e f g h : UInt8) : UInt64 :=
  UInt64.ofNat (a.toNat * 2 ^ 56 + b.toNat * 2 ^ 48 + c.toNat * 2 ^ 40 + d.toNat * 2 ^ 32 +
    e.toNat * 2 ^ 24 + f.toNat * 2 ^ 16 + g.toNat * 2 ^ 8 + h.toNat)

/-! ## Outcomes -/

/-- Outcome of a Rust function that may return `Err(String)` or panic.
`fuel` marks that the recursion budget of the *model* was exhausted; it is proved
that this never happens (`C16`). -/
inductive Out (α : Type) where
  | ok (a : α)
  | err (msg : String)
  | panic
  | fuel
  deriving Repr, DecidableEq

namespace Out
def bind {α β} (x : Out α) (f : α → Out β) : Out β :=
  match x with
  | ok a => f a
  | err m => err m
  | panic => panic
  | fuel => fuel
instance : Monad Out where
  pure := ok
  bind := bind
end Out

/-! ## Writing -/

/-- memory_block.rs:29-33 and memory_block_write.rs:4-7: a block of `size` bytes
together with the write offset.  `written` is the prefix already written, the
offset is its length. -/
structure MemWrite where
  size : Nat
  written : List UInt8

/-- memory_block_write.rs:18-21 and memory_block.rs:58-73: bounds check
`offset + data_len <= size` (in `u32`), otherwise panic. -/
def MemWrite.write (w : MemWrite) (data : List UInt8) : Out MemWrite :=
  if (w.written.length + data.length) % 2 ^ 32 ≤ w.size then
    .ok { w with written := w.written ++ data }
  else .panic

/-- js_json_struct.rs:156-158, `get_string_size`: length `as u32`. -/
def strSize (s : String) : UInt32 := UInt32.ofNat (strBytes s).length

mutual
/-- js_json_struct.rs:126-154, `JsJson::get_size` (u32 arithmetic). -/
def JsJson.getSize : JsJson → UInt32
  | .tru => 1
  | .fls => 1
  | .null => 1
  | .str s => 1 + 4 + strSize s
  | .num _ => 1 + 8
  | .list l => JsJson.getSizeList (1 + 4) l
  | .obj l => JsJson.getSizeObj (1 + 2) l
/-- The loop js_json_struct.rs:137-139. -/
def JsJson.getSizeList (sum : UInt32) : List JsJson → UInt32
  | [] => sum
  | x :: xs => JsJson.getSizeList (sum + x.getSize) xs
/-- The loop js_json_struct.rs:146-149. -/
def JsJson.getSizeObj (sum : UInt32) : List (String × JsJson) → UInt32
  | [] => sum
  | (k, v) :: xs => JsJson.getSizeObj (sum + (4 + strSize k) + v.getSize) xs
end

mutual
/-- js_value_struct.rs:115-151, `JsValue::get_size`. -/
def JsValue.getSize : JsValue → UInt32
  | .u32 _ => 1 + 4
  | .i32 _ => 1 + 4
  | .u64 _ => 1 + 8
  | .i64 _ => 1 + 8
  | .f64 _ => 1 + 8
  | .tru => 1
  | .fls => 1
  | .null => 1
  | .undefined => 1
  | .vec b => 1 + 4 + UInt32.ofNat b.length
  | .str s => 1 + 4 + strSize s
  | .list l => JsValue.getSizeList (1 + 4) l
  | .obj l => JsValue.getSizeObj (1 + 2) l
  | .json j => 1 + j.getSize
/-- The loop js_value_struct.rs:133-135. -/
def JsValue.getSizeList (sum : UInt32) : List JsValue → UInt32
  | [] => sum
  | x :: xs => JsValue.getSizeList (sum + x.getSize) xs
/-- The loop js_value_struct.rs:142-145. -/
def JsValue.getSizeObj (sum : UInt32) : List (String × JsValue) → UInt32
  | [] => sum
  | (k, v) :: xs => JsValue.getSizeObj (sum + (4 + strSize k) + v.getSize) xs
end

/-- js_json_struct.rs:249-253 = js_value_struct.rs:271-275, `write_string_to`. -/
def writeString (s : String) (w : MemWrite) : Out MemWrite := do
  let w ← w.write (be32 (UInt32.ofNat (strBytes s).length))
  w.write (strBytes s)

mutual
/-- js_json_struct.rs:160-197, `JsJson::write_to`; tags from lines 12-21. -/
def JsJson.writeTo : JsJson → MemWrite → Out MemWrite
  | .tru, w => w.write [1]
  | .fls, w => w.write [2]
  | .null, w => w.write [3]
  | .str s, w => do
      let w ← w.write [4]
      writeString s w
  | .num b, w => do
      let w ← w.write [5]
      w.write (be64 b)
  | .list l, w => do
      let w ← w.write [6]
      let w ← w.write (be32 (UInt32.ofNat l.length))
      JsJson.writeList l w
  | .obj l, w => do
      let w ← w.write [7]
      let w ← w.write (be16 (UInt16.ofNat l.length))
      JsJson.writeObj l w
/-- The loop js_json_struct.rs:183-185. -/
def JsJson.writeList : List JsJson → MemWrite → Out MemWrite
  | [], w => .ok w
  | x :: xs, w => do
      let w ← x.writeTo w
      JsJson.writeList xs w
/-- The loop js_json_struct.rs:191-194. -/
def JsJson.writeObj : List (String × JsJson) → MemWrite → Out MemWrite
  | [], w => .ok w
  | (k, v) :: xs, w => do
      let w ← writeString k w
      let w ← v.writeTo w
      JsJson.writeObj xs w
end

mutual
/-- js_value_struct.rs:153-221, `JsValue::write_to`; tags from lines 17-34. -/
def JsValue.writeTo : JsValue → MemWrite → Out MemWrite
  | .u32 v, w => do
      let w ← w.write [1]
      w.write (be32 v)
  | .i32 v, w => do
      let w ← w.write [2]
      w.write (be32 v.toUInt32)
  | .u64 v, w => do
      let w ← w.write [3]
      w.write (be64 v)
  | .i64 v, w => do
      let w ← w.write [4]
      w.write (be64 v.toUInt64)
  | .f64 b, w => do
      let w ← w.write [5]
      w.write (be64 b)
  | .tru, w => w.write [6]
  | .fls, w => w.write [7]
  | .null, w => w.write [8]
  | .undefined, w => w.write [9]
  | .vec b, w => do
      let w ← w.write [10]
      let w ← w.write (be32 (UInt32.ofNat b.length))
      w.write b
  | .str s, w => do
      let w ← w.write [11]
      writeString s w
  | .list l, w => do
      let w ← w.write [12]
      let w ← w.write (be32 (UInt32.ofNat l.length))
      JsValue.writeList l w
  | .obj l, w => do
      let w ← w.write [13]
      let w ← w.write (be16 (UInt16.ofNat l.length))
      JsValue.writeObj l w
  | .json j, w => do
      let w ← w.write [14]
      j.writeTo w
/-- The loop js_value_struct.rs:203-205. -/
def JsValue.writeList : List JsValue → MemWrite → Out MemWrite
  | [], w => .ok w
  | x :: xs, w => do
      let w ← x.writeTo w
      JsValue.writeList xs w
/-- The loop js_value_struct.rs:211-214. -/
def JsValue.writeObj : List (String × JsValue) → MemWrite → Out MemWrite
  | [], w => .ok w
  | (k, v) :: xs, w => do
      let w ← writeString k w
      let w ← v.writeTo w
      JsValue.writeObj xs w
end

/-- js_value_struct.rs:223-230, `to_snapshot`: allocate `get_size` bytes (a zero
size allocation panics, memory_block.rs:9-25), then write.  The result is the
content of the block; bytes that were never written are not determined, so the
model also reports the size of the block. -/
def JsValue.toSnapshot (v : JsValue) : Out MemWrite :=
  if v.getSize = 0 then .panic
  else v.writeTo { size := v.getSize.toNat, written := [] }

/-! ## Reading -/

/-- memory_block_read.rs:4-7, the block and the read offset (`u32`). -/
structure MemRead where
  block : List UInt8
  offset : Nat
  deriving Repr, DecidableEq

/-- `self.block[i]` with Rust's bounds check. -/
def MemRead.at (r : MemRead) (i : Nat) : Out UInt8 :=
  match r.block[i]? with
  | some b => .ok b
  | none => .panic

/-- `self.offset += n` on `u32`. -/
def MemRead.advance (r : MemRead) (n : Nat) : MemRead :=
  { r with offset := (r.offset + n) % 2 ^ 32 }

/-- memory_block_read.rs:31-35 (`get_byte`). -/
def getByte (r : MemRead) : Out (UInt8 × MemRead) := do
  let a ← r.at r.offset
  return (a, r.advance 1)

/-- memory_block_read.rs:37-45 (`get_u16`). -/
def getU16 (r : MemRead) : Out (UInt16 × MemRead) := do
  let a ← r.at r.offset
  let b ← r.at (r.offset + 1)
  return (ofBe16 a b, r.advance 2)

/-- memory_block_read.rs:47-57 (`get_u32`). -/
def getU32 (r : MemRead) : Out (UInt32 × MemRead) := do
  let a ← r.at r.offset
  let b ← r.at (r.offset + 1)
  let c ← r.at (r.offset + 2)
  let d ← r.at (r.offset + 3)
  return (ofBe32 a b c d, r.advance 4)

/-- memory_block_read.rs:59-69 (`get_i32`). -/
def getI32 (r : MemRead) : Out (Int32 × MemRead) := do
  let a ← r.at r.offset
  let b ← r.at (r.offset + 1)
  let c ← r.at (r.offset + 2)
  let d ← r.at (r.offset + 3)
  return ((ofBe32 a b c d).toInt32, r.advance 4)

/-- memory_block_read.rs:71-85 (`get_u64`). -/
def getU64 (r : MemRead) : Out (UInt64 × MemRead) := do
  let a ← r.at r.offset
  let b ← r.at (r.offset + 1)
  let c ← r.at (r.offset + 2)
  let d ← r.at (r.offset + 3)
  let e ← r.at (r.offset + 4)
  let f ← r.at (r.offset + 5)
  let g ← r.at (r.offset + 6)
  let h ← r.at (r.offset + 7)
  return (ofBe64 a b c d e f g h, r.advance 8)

/-- memory_block_read.rs:87-101 (`get_f64`), as bits. -/
def getF64 (r : MemRead) : Out (UInt64 × MemRead) := getU64 r

/-- memory_block_read.rs:103-117 (`get_i64`). -/
def getI64 (r : MemRead) : Out (Int64 × MemRead) := do
  let (v, r) ← getU64 r
  return (v.toInt64, r)

/-- memory_block_read.rs:124-132 (`get_vec`): `to = offset + len` on `u32`, the
slice `[from..to]` panics unless `from <= to <= block.len()`. -/
def getVec (r : MemRead) (len : UInt32) : Out (List UInt8 × MemRead) :=
  let to := (r.offset + len.toNat) % 2 ^ 32
  if r.offset ≤ to ∧ to ≤ r.block.length then
    .ok ((r.block.drop r.offset).take (to - r.offset), r.advance len.toNat)
  else .panic

/-- memory_block_read.rs:119-122 (`get_string`). -/
def getString (r : MemRead) (len : UInt32) : Out (String × MemRead) := do
  let (v, r) ← getVec r len
  match fromUtf8 v with
  | some s => .ok (s, r)
  | none => .err "String decoding error"

/-- `HashMap::insert`: replaces the value of an existing key, otherwise adds an
entry.  (The position is irrelevant: the list stands for the map.) -/
def mapInsert {β : Type} : List (String × β) → String → β → List (String × β)
  | [], k, v => [(k, v)]
  | (k', v') :: l, k, v => if k' = k then (k, v) :: l else (k', v') :: mapInsert l k v

/-- A `for _ in 0..n { out.push(item(buffer)?) }` loop, as in
js_json_struct.rs:280-283 and js_value_struct.rs:324-327. -/
def readList {α : Type} (item : MemRead → Out (α × MemRead)) :
    Nat → List α → MemRead → Out (List α × MemRead)
  | 0, acc, r => .ok (acc, r)
  | n + 1, acc, r => do
      let (x, r) ← item r
      readList item n (acc ++ [x]) r

/-- A `for _ in 0..n { let k = key(buffer)?; let v = item(buffer)?; props.insert(k, v) }`
loop, as in js_json_struct.rs:291-297 and js_value_struct.rs:335-344. -/
def readObj {α : Type} (key : MemRead → Out (String × MemRead))
    (item : MemRead → Out (α × MemRead)) :
    Nat → List (String × α) → MemRead → Out (List (String × α) × MemRead)
  | 0, acc, r => .ok (acc, r)
  | n + 1, acc, r => do
      let (k, r) ← key r
      let (x, r) ← item r
      readObj key item n (mapInsert acc k x) r

/-- `let str_len = buffer.get_u32(); buffer.get_string(str_len)?`
(js_json_struct.rs:292-293). -/
def getLenString (r : MemRead) : Out (String × MemRead) := do
  let (len, r) ← getU32 r
  getString r len

/-- `format!("{}", byte)`, used in error messages. -/
def fmtU8 (b : UInt8) : String := toString b.toNat

/-- js_json_struct.rs:255-304, `decode_js_json_inner`.  The first argument bounds
the recursion depth of the model. -/
def decodeJson : Nat → MemRead → Out (JsJson × MemRead)
  | 0, _ => .fuel
  | fuel + 1, r => do
      let (tag, r) ← getByte r
      if tag = 1 then return (.tru, r)
      else if tag = 2 then return (.fls, r)
      else if tag = 3 then return (.null, r)
      else if tag = 4 then
        let (s, r) ← getLenString r
        return (.str s, r)
      else if tag = 5 then
        let (b, r) ← getF64 r
        return (.num b, r)
      else if tag = 6 then
        let (n, r) ← getU32 r
        let (l, r) ← readList (decodeJson fuel) n.toNat [] r
        return (.list l, r)
      else if tag = 7 then
        let (n, r) ← getU16 r
        let (l, r) ← readObj getLenString (decodeJson fuel) n.toNat [] r
        return (.obj l, r)
      else .err ("JsJson: Unknown data type prefix " ++ fmtU8 tag)

/-- js_value_struct.rs:336-339: the key of an object entry is decoded as a whole
`JsValue` and must be a string. -/
def taggedKey (item : MemRead → Out (JsValue × MemRead)) (r : MemRead) :
    Out (String × MemRead) := do
  let (v, r) ← item r
  match v with
  | .str s => .ok (s, r)
  | _ => .err "string expected"

/-- js_value_struct.rs:277-355, `decode_js_value_inner`. -/
def decodeValue : Nat → MemRead → Out (JsValue × MemRead)
  | 0, _ => .fuel
  | fuel + 1, r => do
      let (tag, r) ← getByte r
      if tag = 1 then
        let (v, r) ← getU32 r
        return (.u32 v, r)
      else if tag = 2 then
        let (v, r) ← getI32 r
        return (.i32 v, r)
      else if tag = 3 then
        let (v, r) ← getU64 r
        return (.u64 v, r)
      else if tag = 4 then
        let (v, r) ← getI64 r
        return (.i64 v, r)
      else if tag = 5 then
        let (v, r) ← getF64 r
        return (.f64 v, r)
      else if tag = 6 then return (.tru, r)
      else if tag = 7 then return (.fls, r)
      else if tag = 8 then return (.null, r)
      else if tag = 9 then return (.undefined, r)
      else if tag = 10 then
        let (len, r) ← getU32 r
        let (b, r) ← getVec r len
        return (.vec b, r)
      else if tag = 11 then
        let (s, r) ← getLenString r
        return (.str s, r)
      else if tag = 12 then
        let (n, r) ← getU32 r
        let (l, r) ← readList (decodeValue fuel) n.toNat [] r
        return (.list l, r)
      else if tag = 13 then
        let (n, r) ← getU16 r
        let (l, r) ← readObj (taggedKey (decodeValue fuel)) (decodeValue fuel) n.toNat [] r
        return (.obj l, r)
      else if tag = 14 then
        let (j, r) ← decodeJson fuel r
        return (.json j, r)
      else .err ("JsValue: Unknown data type prefix " ++ fmtU8 tag)

/-- js_value_struct.rs:91-94, `from_block`; memory_block_read.rs:11-16.  Each
nested call of the decoder has consumed a tag byte, so the number of bytes
bounds the nesting. -/
def fromBlock (block : List UInt8) : Out JsValue := do
  let (v, _) ← decodeValue (block.length + 1) { block, offset := 0 }
  return v

end Verif.Codec
