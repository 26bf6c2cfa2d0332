import Verif.Codec.Model
import Verif.Json.F64
/-!
# Typed JSON: `JsJsonSerialize`, `JsJsonDeserialize` and the derive macro `AutoJsJson`

Sources: `crates/vertigo/src/driver_module/js_value/serialize.rs`, `js_json_struct.rs`
(`get_hashmap`, `get_property`), `crates/vertigo-macro/src/jsjson/*.rs`.

Rust selects the conversion by the type. Here the type is a value of `Ty`; the user defined
types (which may be recursive) are given by an environment of definitions, from which the
macro generates the code. The conversions of `chrono` types are in `Verif.Json.Dates`.
-/
namespace Verif.Json

open Verif.Codec (JsJson)

/-- The types with an implementation of the traits: serialize.rs:62-275, and user types. -/
inductive Ty where
  | string | bool | unit | u32 | i32 | u64 | i64
  | vec (t : Ty)
  | option (t : Ty)
  | hashMap (t : Ty)
  | btreeMap (t : Ty)
  | user (name : Nat)
  deriving DecidableEq, Repr

/-- Values. A map is the list of its entries in the order of the keys. The fields of a struct
or variant are listed in the order of the definition. -/
inductive Val where
  | str (s : String)
  | bool (b : Bool)
  | unit
  | int (i : Int)
  | vec (l : List Val)
  | none
  | some (v : Val)
  | map (l : List (String × Val))
  | struct (fields : List Val)
  | variant (name : String) (fields : List Val)

/-- A named field; `#[js_json(default = ..)]` (structs.rs:7-9). -/
structure Field where
  name : String
  ty : Ty
  default : Option Val := .none

/-- `syn::Fields`. -/
inductive Fields where
  | unit
  | unnamed (ts : List Ty)
  | named (fs : List Field)

/-- The item that carries the derive attribute. -/
inductive Def where
  | struct (f : Fields)
  | enum (variants : List (String × Fields))

abbrev Env := Nat → Def

def Fields.types : Fields → List Ty
  | .unit => []
  | .unnamed ts => ts
  | .named fs => fs.map (·.ty)

/-- Outcomes. The path of an error is innermost first (`JsJsonContext`, serialize.rs:6-47);
`panic` is a failing `unwrap`, `fuel` the exhausted call stack. -/
inductive Res (α : Type) where
  | ok (a : α)
  | err (ctx : List String)
  | panic
  | fuel

abbrev Ctx := List String

def Res.bind {α β : Type} : Res α → (α → Res β) → Res β
  | .ok a, f => f a
  | .err c, _ => .err c
  | .panic, _ => .panic
  | .fuel, _ => .fuel

def Res.map {α β : Type} (f : α → β) : Res α → Res β
  | .ok a => .ok (f a)
  | .err c => .err c
  | .panic => .panic
  | .fuel => .fuel

/-- serialize.rs:35-48. -/
def ctxString (c : Ctx) : String := " -> ".intercalate c.reverse

/-! ## Serialization -/

/-- structs.rs:31-33, 50-54 (objects), newtypes.rs:9-30: the representation of a struct, given
those of its fields. A struct without fields takes the first way (structs.rs:14-22). -/
def structJson (f : Fields) (js : List JsJson) : JsJson :=
  match f with
  | .unit => .obj []
  | .unnamed [] => .obj []
  | .unnamed [_] => js.headD .null
  | .unnamed _ => .list js
  | .named fs => .obj ((fs.map (·.name)).zip js)

/-- enums.rs:32-145 (the `variant_encodes`). -/
def variantJson (name : String) (f : Fields) (js : List JsJson) : JsJson :=
  match f with
  | .unit => .str name
  | .unnamed [_] => .obj [(name, js.headD .null)]
  | .unnamed _ => .obj [(name, .list js)]
  | .named fs => .obj [(name, .obj ((fs.map (·.name)).zip js))]

/-- The definition of a variant. -/
def findVariant (name : String) (l : List (String × Fields)) : Option Fields :=
  (l.find? (·.1 = name)).map (·.2)

mutual
/-- `to_json`: serialize.rs:62-255 and the generated code. (`_, _`: not a value of the
type.) -/
def toJson (env : Env) : Val → Ty → JsJson
  | .str s, .string => .str s
  | .int i, .u64 => .num (intToF64 i)
  | .int i, .i64 => .num (intToF64 i)
  | .int i, .u32 => .num (intToF64 i)
  | .int i, .i32 => .num (intToF64 i)
  | .bool b, .bool => match b with | false => .fls | true => .tru
  | .unit, .unit => .obj []
  | .vec l, .vec t => .list (toJsonAll env l t)
  | .some v, .option t => toJson env v t
  | .none, .option _ => .null
  | .map l, .hashMap t => .obj (toJsonMap env l t)
  | .map l, .btreeMap t => .obj (toJsonMap env l t)
  | .struct vs, .user n =>
      match env n with
      | .struct f => structJson f (toJsonTuple env vs f.types)
      | .enum _ => .null
  | .variant name vs, .user n =>
      match env n with
      | .struct _ => .null
      | .enum l =>
          match findVariant name l with
          | .some f => variantJson name f (toJsonTuple env vs f.types)
          | .none => .null
  | _, _ => .null

/-- serialize.rs:201-207. -/
def toJsonAll (env : Env) : List Val → Ty → List JsJson
  | [], _ => []
  | v :: l, t => toJson env v t :: toJsonAll env l t

/-- serialize.rs:247-251, 276-280. -/
def toJsonMap (env : Env) : List (String × Val) → Ty → List (String × JsJson)
  | [], _ => []
  | (k, v) :: l, t => (k, toJson env v t) :: toJsonMap env l t

/-- tuple_fields.rs:7-25. -/
def toJsonTuple (env : Env) : List Val → List Ty → List JsJson
  | v :: l, t :: ts => toJson env v t :: toJsonTuple env l ts
  | _, _ => []
end

/-! ## Deserialization -/

/-- js_json_struct.rs:199-209. -/
def typename : JsJson → String
  | .tru => "bool" | .fls => "bool" | .null => "null" | .str _ => "string" | .num _ => "number"
  | .list _ => "list" | .obj _ => "object"

/-- js_json_struct.rs:211-224. -/
def getHashmap (ctx : Ctx) : JsJson → Res (List (String × JsJson))
  | .obj l => .ok l
  | other => .err (("object expected, received " ++ typename other) :: ctx)

/-- `HashMap::get`. -/
def mapGet {α : Type} (k : String) (l : List (String × α)) : Option α := (l.find? (·.1 = k)).map (·.2)

/-- js_json_struct.rs:226-246; also returns the object without the property. -/
def getProperty {α : Type} (f : Ctx → JsJson → Res α) (ctx : Ctx) (param : String) : JsJson → JsJson × Res α
  | .obj l =>
      let ctx := ("field: '" ++ param ++ "'") :: ctx
      match mapGet param l with
      | .none => (.obj l, .err ("missing field" :: ctx))
      | .some item => (.obj (l.filter (·.1 ≠ param)), f ctx item)
  | other => (other, .err (("object expected, received " ++ typename other) :: ctx))

/-- serialize.rs:219-224. -/
def decodeVec (f : Ctx → JsJson → Res Val) (ctx : Ctx) : Nat → List JsJson → Res (List Val)
  | _, [] => .ok []
  | index, item :: l =>
      (f (toString index :: ctx) item).bind fun v => (decodeVec f ctx (index + 1) l).bind fun vs => .ok (v :: vs)

/-- `insert` into a map: an entry with the same key is replaced. -/
def mapInsert {α : Type} (k : String) (v : α) : List (String × α) → List (String × α)
  | [] => [(k, v)]
  | e :: l => if k < e.1 then (k, v) :: e :: l else if e.1 = k then (k, v) :: l else e :: mapInsert k v l

/-- serialize.rs:261-266, 292-297. -/
def decodeMap (f : Ctx → JsJson → Res Val) (ctx : Ctx) : List (String × Val) → List (String × JsJson) → Res (List (String × Val))
  | result, [] => .ok result
  | result, (key, item) :: l =>
      (f (("field: '" ++ key ++ "'") :: ctx) item).bind fun v => decodeMap f ctx (mapInsert key v result) l

/-- tuple_fields.rs:26-35: the generated `fields_rev.pop().unwrap()`, one for each field. -/
def decodeTuple (f : Ty → JsJson → Res Val) : List Ty → List JsJson → Res (List Val)
  | [], _ => .ok []
  | t :: ts, fieldsRev =>
      match fieldsRev.getLast? with
      | .none => .panic
      | .some j => (f t j).bind fun v => (decodeTuple f ts fieldsRev.dropLast).bind fun vs => .ok (v :: vs)

/-- structs.rs:40-52: `unwrap_or_else(|_| default)` or `?`. -/
def orDefault (d : Option Val) (r : Res Val) : Res Val :=
  match d, r with
  | .some d, .err _ => .ok d
  | _, r => r

/-- structs.rs:35-45, enums.rs:134-139: `field: json.get_property(..)?` in the order of the
fields. -/
def decodeNamed (f : Ctx → Ty → JsJson → Res Val) (ctx : Ctx) (useDefault : Bool) : List Field → JsJson → Res (List Val)
  | [], _ => .ok []
  | fl :: fs, json =>
      let (json, r) := getProperty (fun c j => f c fl.ty j) ctx fl.name json
      (orDefault (if useDefault then fl.default else .none) r).bind fun v =>
        (decodeNamed f ctx useDefault fs json).bind fun vs => .ok (v :: vs)

/-- enums.rs:166-197 for a string. -/
def decodeSimple (ctx : Ctx) (s : String) : List (String × Fields) → Res Val
  | [] => .err (("Invalid simple variant " ++ s) :: ctx)
  | (name, .unit) :: l => if s = name then .ok (.variant name []) else decodeSimple ctx s l
  | _ :: l => decodeSimple ctx s l

/-- enums.rs:52-60, 88-108, 146-152, for an object. -/
def decodeCompound (f : Ctx → Ty → JsJson → Res Val) (ctx : Ctx) (map : List (String × JsJson)) :
    List (String × Fields) → Res Val
  | [] => .err ("Value not matched with any variant" :: ctx)
  | (_, .unit) :: l => decodeCompound f ctx map l
  | (name, .unnamed ts) :: l =>
      match mapGet name map with
      | .none => decodeCompound f ctx map l
      | .some value =>
          match ts with
          | [t] => (f ctx t value).map fun v => .variant name [v]
          | ts =>
              match value with
              | .list fields =>
                  if fields.length ≠ ts.length then
                    .err (("Wrong unmber of fields in tuple for variant " ++ name ++ ". Expected " ++ toString ts.length ++ ", got " ++ toString fields.length) :: ctx)
                  else (decodeTuple (f ctx) ts fields.reverse).map (.variant name)
              | x => .err (("Invalid type " ++ typename x ++ " while decoding enum tuple, expected list") :: ctx)
  | (name, .named fs) :: l =>
      match mapGet name map with
      | .none => decodeCompound f ctx map l
      | .some value => (decodeNamed f ctx false fs value).map (.variant name)

/-- The conversion of a number to the type. -/
def decodeInt (lo hi : Int) (name : String) (ctx : Ctx) : JsJson → Res Val
  | .num bits => .ok (.int (f64ToInt lo hi bits))
  | other => .err (("number(" ++ name ++ ") expected, received " ++ typename other) :: ctx)

/-- `from_json`: serialize.rs:68-297 and the generated code. -/
def fromJson (env : Env) : Nat → Ctx → Ty → JsJson → Res Val
  | 0, _, _, _ => .fuel
  | n + 1, ctx, ty, json =>
      match ty with
      | .string =>
          match json with
          | .str s => .ok (.str s)
          | other => .err (("string expected, received " ++ typename other) :: ctx)
      | .u64 => decodeInt 0 (2 ^ 64 - 1) "u64" ctx json
      | .i64 => decodeInt (-2 ^ 63) (2 ^ 63 - 1) "i64" ctx json
      | .u32 => decodeInt 0 (2 ^ 32 - 1) "u32" ctx json
      | .i32 => decodeInt (-2 ^ 31) (2 ^ 31 - 1) "i32" ctx json
      | .bool =>
          match json with
          | .fls => .ok (.bool false)
          | .tru => .ok (.bool true)
          | other => .err (("bool expected, received " ++ typename other) :: ctx)
      | .unit =>
          (getHashmap ctx json).bind fun map =>
            if map.isEmpty then .ok .unit else .err ("Empty {} expected, inner content received" :: ctx)
      | .vec t =>
          match json with
          | .list l => (decodeVec (fun c j => fromJson env n c t j) ctx 0 l).map .vec
          | other => .err (("List expected, received " ++ typename other) :: ctx)
      | .option t =>
          match json with
          | .null => .ok .none
          | json => (fromJson env n ctx t json).map .some
      | .hashMap t => (getHashmap ctx json).bind fun map => (decodeMap (fun c j => fromJson env n c t j) ctx [] map).map .map
      | .btreeMap t => (getHashmap ctx json).bind fun map => (decodeMap (fun c j => fromJson env n c t j) ctx [] map).map .map
      | .user u =>
          match env u with
          | .struct .unit => .ok (.struct [])
          | .struct (.unnamed []) => .ok (.struct [])
          | .struct (.unnamed [t]) => (fromJson env n ctx t json).map fun v => .struct [v]
          | .struct (.unnamed ts) =>
              match json with
              | .list fields =>
                  if fields.length ≠ ts.length then
                    .err (("Wrong number of fields in tuple for newtype. Expected " ++ toString ts.length ++ ", got " ++ toString fields.length) :: ctx)
                  else (decodeTuple (fromJson env n ctx) ts fields.reverse).map .struct
              | x => .err (("Invalid type " ++ typename x ++ " while decoding newtype tuple, expected list") :: ctx)
          | .struct (.named fs) => (decodeNamed (fromJson env n) ctx true fs json).map .struct
          | .enum variants =>
              match json with
              | .str s => decodeSimple ctx s variants
              | .obj map => decodeCompound (fromJson env n) ctx map variants
              | x => .err (("Invalid type " ++ typename x ++ " while decoding enum, expected string or object") :: ctx)

end Verif.Json
