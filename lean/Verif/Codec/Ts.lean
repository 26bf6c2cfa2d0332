import Verif.Codec.Model
/-!
# Model of the TypeScript codec

Sources (below `crates/vertigo/src/driver_module/src_js/`): `buffer_cursor.ts`,
`jsjson.ts`, `jsvalue.ts`.

The TypeScript types `JsValueType` (jsvalue.ts:25-38) and `JsJsonType`
(jsjson.ts:14-24) have the same constructors as the Rust enums; the model uses
the same inductive types for both sides, so "the same value" is equality.
Simplifications: JavaScript strings are well formed (no lone surrogates),
integers carried in `{type, value}` records are in the range of their type, NaN
payloads are preserved by `DataView`.  A thrown exception is `Out.panic`.
-/
namespace Verif.Codec.Ts
open Verif.Codec

/-! ## Reading -/

/-- buffer_cursor.ts:6-20: a `DataView` of `size` bytes at `ptr` in the wasm
memory, and the read position. -/
structure Cursor where
  mem : List UInt8
  ptr : Nat
  size : Nat
  pointer : Nat
  deriving Repr, DecidableEq

/-- `DataView.getUint8(pointer + i)` for an access of `n` bytes at `pointer`:
a `RangeError` unless `pointer + n <= size`. -/
def Cursor.at (c : Cursor) (n i : Nat) : Out UInt8 :=
  if c.pointer + n ≤ c.size then
    match c.mem[c.ptr + c.pointer + i]? with
    | some b => .ok b
    | none => .panic
  else .panic

def Cursor.adv (c : Cursor) (n : Nat) : Cursor := { c with pointer := c.pointer + n }

/-- buffer_cursor.ts:22-26. -/
def getByte (c : Cursor) : Out (UInt8 × Cursor) := do
  let a ← c.at 1 0
  return (a, c.adv 1)

/-- buffer_cursor.ts:33-37. -/
def getU16 (c : Cursor) : Out (UInt16 × Cursor) := do
  let a ← c.at 2 0
  let b ← c.at 2 1
  return (ofBe16 a b, c.adv 2)

/-- buffer_cursor.ts:44-48. -/
def getU32 (c : Cursor) : Out (UInt32 × Cursor) := do
  let a ← c.at 4 0
  let b ← c.at 4 1
  let d ← c.at 4 2
  let e ← c.at 4 3
  return (ofBe32 a b d e, c.adv 4)

/-- buffer_cursor.ts:55-59. -/
def getI32 (c : Cursor) : Out (Int32 × Cursor) := do
  let (v, c) ← getU32 c
  return (v.toInt32, c)

/-- buffer_cursor.ts:66-70. -/
def getU64 (c : Cursor) : Out (UInt64 × Cursor) := do
  let a0 ← c.at 8 0
  let a1 ← c.at 8 1
  let a2 ← c.at 8 2
  let a3 ← c.at 8 3
  let a4 ← c.at 8 4
  let a5 ← c.at 8 5
  let a6 ← c.at 8 6
  let a7 ← c.at 8 7
  return (ofBe64 a0 a1 a2 a3 a4 a5 a6 a7, c.adv 8)

/-- buffer_cursor.ts:77-81. -/
def getI64 (c : Cursor) : Out (Int64 × Cursor) := do
  let (v, c) ← getU64 c
  return (v.toInt64, c)

/-- buffer_cursor.ts:88-92. -/
def getF64 (c : Cursor) : Out (UInt64 × Cursor) := getU64 c

/-- buffer_cursor.ts:99-110: `subarray` of the whole memory (clamped by its end,
not checked against the view). -/
def getBuffer (c : Cursor) : Out (List UInt8 × Cursor) := do
  let (n, c) ← getU32 c
  return ((c.mem.drop (c.ptr + c.pointer)).take n.toNat, c.adv n.toNat)

/-- The UTF-8 encoding of U+FEFF. -/
def bom : List UInt8 := [0xEF, 0xBB, 0xBF]

/-- `new TextDecoder("utf-8").decode(..)` (buffer_cursor.ts:3, 128-130): with the
default `ignoreBOM: false` a leading byte order mark is removed, and malformed
input is replaced, not rejected.  The replacement is the parameter `lossy`. -/
def textDecode (lossy : List UInt8 → String) (b : List UInt8) : String :=
  let b := if bom.isPrefixOf b then b.drop 3 else b
  match fromUtf8 b with
  | some s => s
  | none => lossy b

/-- buffer_cursor.ts:128-130. -/
def getString (lossy : List UInt8 → String) (c : Cursor) : Out (String × Cursor) := do
  let (b, c) ← getBuffer c
  return (textDecode lossy b, c)

/-- The loop `for (i=0; i<listSize; i++) out.push(item(cursor))`
(jsjson.ts:93-95, jsvalue.ts:117-119). -/
def readList {α : Type} (item : Cursor → Out (α × Cursor)) :
    Nat → List α → Cursor → Out (List α × Cursor)
  | 0, acc, c => .ok (acc, c)
  | n + 1, acc, c => do
      let (x, c) ← item c
      readList item n (acc ++ [x]) c

/-- `out[key] = value` on a plain object `{}`: assigning `__proto__` runs the
setter inherited from `Object.prototype` and creates no entry. -/
def objSet {β : Type} (l : List (String × β)) (k : String) (v : β) : List (String × β) :=
  if k = "__proto__" then l else mapInsert l k v

/-- The loops jsjson.ts:105-109 and jsvalue.ts:129-133. -/
def readObj {α : Type} (key : Cursor → Out (String × Cursor))
    (item : Cursor → Out (α × Cursor)) :
    Nat → List (String × α) → Cursor → Out (List (String × α) × Cursor)
  | 0, acc, c => .ok (acc, c)
  | n + 1, acc, c => do
      let (k, c) ← key c
      let (x, c) ← item c
      readObj key item n (objSet acc k x) c

/-- jsjson.ts:65-112: every unknown tag is read as an object. -/
def decodeJson (lossy : List UInt8 → String) : Nat → Cursor → Out (JsJson × Cursor)
  | 0, _ => .fuel
  | fuel + 1, c => do
      let (tag, c) ← getByte c
      if tag = 1 then return (.tru, c)
      else if tag = 2 then return (.fls, c)
      else if tag = 3 then return (.null, c)
      else if tag = 4 then
        let (s, c) ← getString lossy c
        return (.str s, c)
      else if tag = 5 then
        let (b, c) ← getF64 c
        return (.num b, c)
      else if tag = 6 then
        let (n, c) ← getU32 c
        let (l, c) ← readList (decodeJson lossy fuel) n.toNat [] c
        return (.list l, c)
      else
        let (n, c) ← getU16 c
        let (l, c) ← readObj (getString lossy) (decodeJson lossy fuel) n.toNat [] c
        return (.obj l, c)

/-- jsvalue.ts:50-152. -/
def decodeValue (lossy : List UInt8 → String) : Nat → Cursor → Out (JsValue × Cursor)
  | 0, _ => .fuel
  | fuel + 1, c => do
      let (tag, c) ← getByte c
      if tag = 1 then
        let (v, c) ← getU32 c
        return (.u32 v, c)
      else if tag = 2 then
        let (v, c) ← getI32 c
        return (.i32 v, c)
      else if tag = 3 then
        let (v, c) ← getU64 c
        return (.u64 v, c)
      else if tag = 4 then
        let (v, c) ← getI64 c
        return (.i64 v, c)
      else if tag = 5 then
        let (v, c) ← getF64 c
        return (.f64 v, c)
      else if tag = 6 then return (.tru, c)
      else if tag = 7 then return (.fls, c)
      else if tag = 8 then return (.null, c)
      else if tag = 9 then return (.undefined, c)
      else if tag = 10 then
        let (b, c) ← getBuffer c
        return (.vec b, c)
      else if tag = 11 then
        let (s, c) ← getString lossy c
        return (.str s, c)
      else if tag = 12 then
        let (n, c) ← getU32 c
        let (l, c) ← readList (decodeValue lossy fuel) n.toNat [] c
        return (.list l, c)
      else if tag = 13 then
        let (n, c) ← getU16 c
        let (l, c) ← readObj (getString lossy) (decodeValue lossy fuel) n.toNat [] c
        return (.obj l, c)
      else if tag = 14 then
        let (j, c) ← decodeJson lossy fuel c
        return (.json j, c)
      else .panic

/-- jsvalue.ts:154-162: `new DataView` throws if the view leaves the memory, every
exception is turned into the empty list. -/
def jsValueDecode (lossy : List UInt8 → String) (mem : List UInt8) (ptr size : Nat) : JsValue :=
  if ptr + size ≤ mem.length then
    match decodeValue lossy (size + 1) ⟨mem, ptr, size, 0⟩ with
    | .ok (v, _) => v
    | _ => .list []
  else .list []

/-! ## Writing -/

/-- buffer_cursor.ts:142-144. -/
def getStringSize (s : String) : Nat := (strBytes s).length

mutual
/-- jsjson.ts:26-63. -/
def jsonSize : JsJson → Nat
  | .tru | .fls => 1
  | .null => 1
  | .str s => 1 + 4 + getStringSize s
  | .list l => jsonSizeL (1 + 4) l
  | .num _ => 9
  | .obj l => jsonSizeO (1 + 2) l
def jsonSizeL (sum : Nat) : List JsJson → Nat
  | [] => sum
  | x :: xs => jsonSizeL (sum + jsonSize x) xs
def jsonSizeO (sum : Nat) : List (String × JsJson) → Nat
  | [] => sum
  | (k, v) :: xs => jsonSizeO (sum + (4 + getStringSize k) + jsonSize v) xs
end

mutual
/-- jsvalue.ts:164-216. -/
def valueSize : JsValue → Nat
  | .tru | .fls | .null | .undefined => 1
  | .str s => 1 + 4 + getStringSize s
  | .list l => valueSizeL (1 + 4) l
  | .vec b => 1 + 4 + b.length
  | .i32 _ | .u32 _ => 5
  | .i64 _ | .u64 _ | .f64 _ => 9
  | .obj l => valueSizeO (1 + 2) l
  | .json j => 1 + jsonSize j
def valueSizeL (sum : Nat) : List JsValue → Nat
  | [] => sum
  | x :: xs => valueSizeL (sum + valueSize x) xs
def valueSizeO (sum : Nat) : List (String × JsValue) → Nat
  | [] => sum
  | (k, v) :: xs => valueSizeO (sum + (4 + getStringSize k) + valueSize v) xs
end

/-- The writing side of the cursor: the view has `size` bytes, `written` are the
bytes stored so far (`pointer` is its length). -/
structure WCursor where
  size : Nat
  written : List UInt8
  deriving Repr, DecidableEq

/-- `DataView.setX` (buffer_cursor.ts:28-31, 39-42, 50-53, 61-64, 72-75, 83-86,
94-97): `RangeError` outside of the view. -/
def WCursor.set (c : WCursor) (bytes : List UInt8) : Out WCursor :=
  if c.written.length + bytes.length ≤ c.size then .ok { c with written := c.written ++ bytes }
  else .panic

/-- buffer_cursor.ts:112-126: the bytes are copied through a `subarray` of the
memory, without a check against the view. -/
def WCursor.setBuffer (c : WCursor) (b : List UInt8) : Out WCursor := do
  let c ← c.set (be32 (UInt32.ofNat b.length))
  return { c with written := c.written ++ b }

/-- buffer_cursor.ts:132-135. -/
def WCursor.setString (c : WCursor) (s : String) : Out WCursor := c.setBuffer (strBytes s)

mutual
/-- jsjson.ts:114-167. -/
def saveJson : JsJson → WCursor → Out WCursor
  | .tru, c => c.set [1]
  | .fls, c => c.set [2]
  | .null, c => c.set [3]
  | .str s, c => do
      let c ← c.set [4]
      c.setString s
  | .num b, c => do
      let c ← c.set [5]
      c.set (be64 b)
  | .list l, c => do
      let c ← c.set [6]
      let c ← c.set (be32 (UInt32.ofNat l.length))
      saveJsonL l c
  | .obj l, c => do
      let c ← c.set [7]
      let c ← c.set (be16 (UInt16.ofNat l.length))
      saveJsonO l c
def saveJsonL : List JsJson → WCursor → Out WCursor
  | [], c => .ok c
  | x :: xs, c => do
      let c ← saveJson x c
      saveJsonL xs c
def saveJsonO : List (String × JsJson) → WCursor → Out WCursor
  | [], c => .ok c
  | (k, v) :: xs, c => do
      let c ← c.setString k
      let c ← saveJson v c
      saveJsonO xs c
end

mutual
/-- jsvalue.ts:218-316. -/
def saveValue : JsValue → WCursor → Out WCursor
  | .tru, c => c.set [6]
  | .fls, c => c.set [7]
  | .null, c => c.set [8]
  | .undefined, c => c.set [9]
  | .vec b, c => do
      let c ← c.set [10]
      c.setBuffer b
  | .str s, c => do
      let c ← c.set [11]
      c.setString s
  | .list l, c => do
      let c ← c.set [12]
      let c ← c.set (be32 (UInt32.ofNat l.length))
      saveValueL l c
  | .u32 v, c => do
      let c ← c.set [1]
      c.set (be32 v)
  | .i32 v, c => do
      let c ← c.set [2]
      c.set (be32 v.toUInt32)
  | .u64 v, c => do
      let c ← c.set [3]
      c.set (be64 v)
  | .i64 v, c => do
      let c ← c.set [4]
      c.set (be64 v.toUInt64)
  | .f64 v, c => do
      let c ← c.set [5]
      c.set (be64 v)
  | .obj l, c => do
      let c ← c.set [13]
      let c ← c.set (be16 (UInt16.ofNat l.length))
      saveValueO l c
  | .json j, c => do
      let c ← c.set [14]
      saveJson j c
def saveValueL : List JsValue → WCursor → Out WCursor
  | [], c => .ok c
  | x :: xs, c => do
      let c ← saveValue x c
      saveValueL xs c
def saveValueO : List (String × JsValue) → WCursor → Out WCursor
  | [], c => .ok c
  | (k, v) :: xs, c => do
      let c ← c.setString k
      let c ← saveValue v c
      saveValueO xs c
end

/-- jsvalue.ts:318-343, for a value other than `undefined` (which is passed as
pointer 0 without a buffer): the bytes of the allocated buffer, or an exception. -/
def saveToBuffer (v : JsValue) : Out (List UInt8) := do
  let c ← saveValue v ⟨valueSize v, []⟩
  if valueSize v = c.written.length then return c.written else .panic

end Verif.Codec.Ts
