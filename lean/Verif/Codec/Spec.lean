import Verif.Codec.Model
/-!
# Specification vocabulary of the codec properties

Independent of the encoder and decoder: which trees are values of the Rust types
at all (map keys are distinct), which of them the format can carry, and how many
bytes they need (as unbounded natural numbers).
-/
namespace Verif.Codec

mutual
/-- Bytes needed by a `JsJson` on the wire, as a natural number: one tag byte,
4 byte string length, 8 byte numbers, 4 byte list count, 2 byte object count. -/
def JsJson.wireLen : JsJson → Nat
  | .tru | .fls | .null => 1
  | .str s => 1 + 4 + s.utf8ByteSize
  | .num _ => 1 + 8
  | .list l => 1 + 4 + JsJson.wireLenL l
  | .obj l => 1 + 2 + JsJson.wireLenO l
def JsJson.wireLenL : List JsJson → Nat
  | [] => 0
  | x :: xs => x.wireLen + JsJson.wireLenL xs
def JsJson.wireLenO : List (String × JsJson) → Nat
  | [] => 0
  | (k, v) :: xs => 4 + k.utf8ByteSize + v.wireLen + JsJson.wireLenO xs
end

mutual
/-- The same for `JsValue`; keys of objects carry no tag. -/
def JsValue.wireLen : JsValue → Nat
  | .u32 _ | .i32 _ => 1 + 4
  | .u64 _ | .i64 _ | .f64 _ => 1 + 8
  | .tru | .fls | .null | .undefined => 1
  | .vec b => 1 + 4 + b.length
  | .str s => 1 + 4 + s.utf8ByteSize
  | .list l => 1 + 4 + JsValue.wireLenL l
  | .obj l => 1 + 2 + JsValue.wireLenO l
  | .json j => 1 + j.wireLen
def JsValue.wireLenL : List JsValue → Nat
  | [] => 0
  | x :: xs => x.wireLen + JsValue.wireLenL xs
def JsValue.wireLenO : List (String × JsValue) → Nat
  | [] => 0
  | (k, v) :: xs => 4 + k.utf8ByteSize + v.wireLen + JsValue.wireLenO xs
end

mutual
/-- A tree of Rust maps (distinct keys) none of which has more than 65535 entries. -/
def JsJson.WF : JsJson → Prop
  | .tru | .fls | .null | .str _ | .num _ => True
  | .list l => JsJson.WFL l
  | .obj l => (l.map (·.1)).Nodup ∧ l.length < 2 ^ 16 ∧ JsJson.WFO l
def JsJson.WFL : List JsJson → Prop
  | [] => True
  | x :: xs => x.WF ∧ JsJson.WFL xs
def JsJson.WFO : List (String × JsJson) → Prop
  | [] => True
  | (_, v) :: xs => v.WF ∧ JsJson.WFO xs
end

mutual
/-- The same for `JsValue`. -/
def JsValue.WF : JsValue → Prop
  | .list l => JsValue.WFL l
  | .obj l => (l.map (·.1)).Nodup ∧ l.length < 2 ^ 16 ∧ JsValue.WFO l
  | .json j => j.WF
  | _ => True
def JsValue.WFL : List JsValue → Prop
  | [] => True
  | x :: xs => x.WF ∧ JsValue.WFL xs
def JsValue.WFO : List (String × JsValue) → Prop
  | [] => True
  | (_, v) :: xs => v.WF ∧ JsValue.WFO xs
end

mutual
/-- No non-empty `JsValue::Object` occurs in the value.  (`JsJson` objects are
allowed.) -/
def JsValue.NoObject : JsValue → Prop
  | .list l => JsValue.NoObjectL l
  | .obj l => l = []
  | _ => True
def JsValue.NoObjectL : List JsValue → Prop
  | [] => True
  | x :: xs => x.NoObject ∧ JsValue.NoObjectL xs
end

end Verif.Codec
