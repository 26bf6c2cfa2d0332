import Verif.Codec.Props
import Verif.Json.F64
/-!
# C51: access to the browser from Rust

Sources: `crates/vertigo/src/driver_module/api/{api_dom_access,arguments}.rs`,
`crates/vertigo/src/driver_module/src_js/{js_node,guard,jsvalue,wasm_module}.ts`,
`crates/vertigo/src/dom/dom_element_ref.rs`.

A chain is built in Rust, sent as bytes, executed by the browser step by step, and the value of
the last step comes back as bytes.

Simplifications: objects of the browser are opaque references of a world that can do anything
when a property is read or written or a function is called; cyclic objects (`RangeError`) are
not modelled; the order of the entries of an object is irrelevant.
-/
namespace Verif.Host
open Verif.Codec
open Verif.Json (intToF64 f64ToInt)

/-! ## Model: Rust -/

/-- The methods of `DomAccess` (api_dom_access.rs:26-102; `synthetic` is not for the browser). -/
inductive Access where
  | api
  | element (id : UInt64)
  | root (name : String)
  | get (name : String)
  | set (name : String) (value : JsValue)
  | call (name : String) (params : List JsValue)
  | getProps (names : List String)

/-- What each method adds to the builder: api_dom_access.rs:27-102. -/
def Access.item : Access → JsValue
  | .api => .list [.str "api"]
  | .element id => .list [.str "root", .u64 id]
  | .root name => .list [.str "root", .str name]
  | .get name => .list [.str "get", .str name]
  | .set name value => .list [.str "set", .str name, value]
  | .call name params => .list (.str "call" :: .str name :: params)
  | .getProps names => .list (.str "get_props" :: names.map .str)

/-- api_dom_access.rs:115, the value that is sent. -/
def build (chain : List Access) : JsValue := .list (chain.map Access.item)

/-! ## Model: JavaScript values -/

/-- The values of JavaScript as far as the conversions can tell them apart. An object is given by
its own enumerable properties; `other` is a function or a symbol. -/
inductive Js where
  | undefined
  | null
  | bool (b : Bool)
  | num (bits : UInt64)
  | bigint (i : Int)
  | str (s : String)
  | bytes (b : List UInt8)
  | arr (l : List Js)
  | obj (l : List (String × Js))
  | other
  deriving Inhabited

mutual
/-- A decoded `JsJsonType` is a JavaScript value (jsjson.ts:14-24). -/
def ofJson : JsJson → Js
  | .tru => .bool true
  | .fls => .bool false
  | .null => .null
  | .str s => .str s
  | .num bits => .num bits
  | .list l => .arr (ofJsonL l)
  | .obj l => .obj (ofJsonO l)
def ofJsonL : List JsJson → List Js
  | [] => []
  | x :: xs => ofJson x :: ofJsonL xs
def ofJsonO : List (String × JsJson) → List (String × Js)
  | [] => []
  | (k, x) :: xs => (k, ofJson x) :: ofJsonO xs
end

mutual
/-- jsvalue.ts:345-403, `convertFromJsValue`. -/
def fromJsValue : JsValue → Js
  | .tru => .bool true
  | .fls => .bool false
  | .null => .null
  | .undefined => .undefined
  | .vec b => .bytes b
  | .str s => .str s
  | .list l => .arr (fromJsValueL l)
  | .u32 v => .num (intToF64 v.toNat)
  | .i32 v => .num (intToF64 v.toInt)
  | .u64 v => .bigint v.toNat
  | .i64 v => .bigint v.toInt
  | .f64 bits => .num bits
  | .obj l => .obj (fromJsValueO [] l)
  | .json j => ofJson j
/-- jsvalue.ts:371-378 -/
def fromJsValueL : List JsValue → List Js
  | [] => []
  | x :: xs => fromJsValue x :: fromJsValueL xs
/-- jsvalue.ts:391-393 -/
def fromJsValueO (result : List (String × Js)) : List (String × JsValue) → List (String × Js)
  | [] => result
  | (k, x) :: xs => fromJsValueO (Ts.objSet result k (fromJsValue x)) xs
end

mutual
/-- jsvalue.ts:483-509, `convertToJsJson`; `none` is an exception. A `Uint8Array` is an object whose
properties are its indices. -/
def toJsJson : Js → Option JsJson
  | .bool true => some .tru
  | .bool false => some .fls
  | .null => some .null
  | .num bits => some (.num bits)
  | .str s => some (.str s)
  | .arr l => (toJsJsonL l).map .list
  | .obj l => (toJsJsonO [] l).map .obj
  | .bytes b => some (.obj (b.zipIdx.map fun x => (toString x.2, .num (intToF64 x.1.toNat))))
  | .undefined | .bigint _ | .other => none
/-- jsvalue.ts:489 -/
def toJsJsonL : List Js → Option (List JsJson)
  | [] => some []
  | x :: xs => do
      let y ← toJsJson x
      let ys ← toJsJsonL xs
      some (y :: ys)
/-- jsvalue.ts:493-495 -/
def toJsJsonO (result : List (String × JsJson)) : List (String × Js) → Option (List (String × JsJson))
  | [] => some result
  | (k, x) :: xs => do
      let y ← toJsJson x
      toJsJsonO (Ts.objSet result k y) xs
end

/-- `value === (value | 0)` (jsvalue.ts:418): the number is an integer in the range of `i32` (also `-0`). -/
def asInt32 (bits : UInt64) : Option Int32 :=
  let i := f64ToInt (-2 ^ 31) (2 ^ 31 - 1) bits
  if bits = intToF64 i ∨ bits = 2 ^ 63 then some (Int32.ofInt i) else none

mutual
/-- jsvalue.ts:408-480, `convertToJsValue`; `none` is an exception. The branch for `I64`
(jsvalue.ts:427-430) is never taken: `value | 0` is in the range of `i32`; nor is the one for arrays
(jsvalue.ts:466-476): an array is an object. A bigint is written modulo 2^64 (`setBigInt64`). -/
def toJsValue : Js → Option JsValue
  | .str s => some (.str s)
  | .bool true => some .tru
  | .bool false => some .fls
  | .undefined => some .undefined
  | .null => some .null
  | .num bits =>
      match asInt32 bits with
      | some v => some (.i32 v)
      | none => some (.f64 bits)
  | .bigint i => some (.i64 (Int64.ofInt i))
  | .bytes b => some (.vec b)
  | .arr l =>
      match toJsJsonL l with
      | some l => some (.json (.list l))
      | none => (toJsValueA 0 [] l).map .obj
  | .obj l =>
      match toJsJsonO [] l with
      | some l => some (.json (.obj l))
      | none => (toJsValueO [] l).map .obj
  | .other => none
/-- jsvalue.ts:459-463 for an array: `Object.entries` has the indices as keys. -/
def toJsValueA (i : Nat) (result : List (String × JsValue)) : List Js → Option (List (String × JsValue))
  | [] => some result
  | x :: xs => do
      let y ← toJsValue x
      toJsValueA (i + 1) (Ts.objSet result (toString i) y) xs
/-- jsvalue.ts:459-463 -/
def toJsValueO (result : List (String × JsValue)) : List (String × Js) → Option (List (String × JsValue))
  | [] => some result
  | (k, x) :: xs => do
      let y ← toJsValue x
      toJsValueO (Ts.objSet result k y) xs
end

mutual
/-- A `JsValueType` as the JavaScript value it is (jsvalue.ts:25-38). -/
def reify : JsValue → Js
  | .u32 v => .obj [("type", .num (intToF64 1)), ("value", .num (intToF64 v.toNat))]
  | .i32 v => .obj [("type", .num (intToF64 2)), ("value", .num (intToF64 v.toInt))]
  | .u64 v => .obj [("type", .num (intToF64 3)), ("value", .bigint v.toNat)]
  | .i64 v => .obj [("type", .num (intToF64 4)), ("value", .bigint v.toInt)]
  | .f64 bits => .obj [("type", .num (intToF64 5)), ("value", .num bits)]
  | .tru => .bool true
  | .fls => .bool false
  | .null => .null
  | .undefined => .undefined
  | .vec b => .bytes b
  | .str s => .str s
  | .list l => .arr (reifyL l)
  | .obj l => .obj [("type", .num (intToF64 13)), ("value", .obj (reifyO l))]
  | .json j => .obj [("type", .num (intToF64 14)), ("value", ofJson j)]
def reifyL : List JsValue → List Js
  | [] => []
  | x :: xs => reify x :: reifyL xs
def reifyO : List (String × JsValue) → List (String × Js)
  | [] => []
  | (k, x) :: xs => (k, reify x) :: reifyO xs
end

/-! ## Model: the browser -/

/-- The browser: `W` are its states, `R` its values. Reading or writing a property and calling a
function can do anything; `none` and `false` are exceptions. -/
structure World (W R : Type) where
  api : R
  window : R
  document : R
  /-- the initial value of a chain -/
  null : R
  undefined : R
  /-- the node with an id (map_nodes.ts:29-43) -/
  node : W → Nat → Option R
  /-- a value built by the glue code -/
  give : W → Js → R × W
  /-- what the conversions see of a value -/
  read : W → R → Js
  get : W → R → String → Option R × W
  set : W → R → String → R → Bool × W
  /-- `object[name](...args)` -/
  call : W → R → String → List R → Option R × W

variable {W R : Type}

/-- The values of arguments, built one after the other. -/
def World.giveAll (o : World W R) (w : W) : List Js → List R × W
  | [] => ([], w)
  | j :: js =>
      let a := o.give w j
      let b := o.giveAll a.2 js
      (a.1 :: b.1, b.2)

/-- How a step of a chain ends: with a node, with `null` (the error is on the console), or with an
exception. -/
inductive Next (W R : Type) where
  | node (r : R) (w : W)
  | null (w : W)
  | thrown (w : W)

/-- js_node.ts:21-34 -/
def getByProperty (o : World W R) (w : W) (r : R) (property : String) : Next W R :=
  match o.get w r property with
  | (some v, w) => .node v w
  | (none, w) => .null w

/-- js_node.ts:72-79 -/
def nextApi (o : World W R) (w : W) : List JsValue → Next W R
  | [] => .node o.api w
  | _ => .null w

/-- js_node.ts:85-116 with guard.ts:4-6, 12-18: numbers are `I32` and `U32`. -/
def nextRoot (o : World W R) (w : W) : List JsValue → Next W R
  | [.str name] =>
      if name = "window" then .node o.window w
      else if name = "document" then .node o.document w
      else .null w
  | [.u32 id] =>
      match o.node w id.toNat with
      | some r => .node r w
      | none => .null w
  | [.i32 id] =>
      match (if 0 ≤ id.toInt then o.node w id.toInt.toNat else none) with
      | some r => .node r w
      | none => .null w
  | _ => .null w

/-- js_node.ts:118-127 -/
def nextGet (o : World W R) (w : W) (r : R) : List JsValue → Next W R
  | [.str property] => getByProperty o w r property
  | _ => .null w

/-- js_node.ts:126-147; a missing value is `undefined`. -/
def nextSet (o : World W R) (w : W) (r : R) : List JsValue → Next W R
  | [.str property] => set property .undefined
  | [.str property, value] => set property (fromJsValue value)
  | _ => .null w
where
  set (property : String) (value : Js) : Next W R :=
    let v := o.give w value
    match o.set v.2 r property v.1 with
    | (true, w) => .node o.undefined w
    | (false, w) => .null w

/-- js_node.ts:151-172 -/
def nextCall (o : World W R) (w : W) (r : R) : List JsValue → Next W R
  | .str property :: args =>
      let params := o.giveAll w (args.map fromJsValue)
      match o.call params.2 r property params.1 with
      | (some v, w) => .node v w
      | (none, w) => .null w
  | _ => .null w

/-- The loop js_node.ts:177-189. -/
def propsLoop (o : World W R) (w : W) (r : R) (result : List (String × Js)) : List JsValue → Next W R
  | [] => let v := o.give w (.obj result); .node v.1 v.2
  | .str property :: args =>
      match getByProperty o w r property with
      | .node v w =>
          match toJsValue (o.read w v) with
          | some x => propsLoop o w r (Ts.objSet result property (reify x)) args
          | none => .thrown w
      | .null w => .null w
      | .thrown w => .thrown w
  | _ => .null w

/-- js_node.ts:40-70, `next`, with js_node.ts:174-192. -/
def next (o : World W R) (w : W) (r : R) : JsValue → Next W R
  | .list (.str name :: args) =>
      if name = "api" then nextApi o w args
      else if name = "root" then nextRoot o w args
      else if name = "get" then nextGet o w r args
      else if name = "set" then nextSet o w r args
      else if name = "call" then nextCall o w r args
      else if name = "get_props" then propsLoop o w r [] args
      else .null w
  | _ => .null w

/-- The loop wasm_module.ts:64-72. -/
def path (o : World W R) (w : W) (r : R) : List JsValue → Next W R
  | [] => .node r w
  | item :: items =>
      match next o w r item with
      | .node r w => path o w r items
      | .null w => .null w
      | .thrown w => .thrown w

/-- What Rust gets: a value, or nothing because an exception ended the call. -/
inductive Answer where
  | value (v : JsValue)
  | exception

/-- The value written by the browser and read by Rust: `saveToBuffer` (jsvalue.ts:318-343: the pointer
0 for `undefined`) and `get_by_ptr` (arguments.rs:27-47: errors are logged and give `Undefined`). -/
def transfer : JsValue → Answer
  | .undefined => .value .undefined
  | v =>
      match Ts.saveToBuffer v with
      | .ok bytes =>
          match fromBlock bytes with
          | .ok v => .value v
          | .err _ => .value .undefined
          | _ => .exception
      | _ => .exception

/-- wasm_module.ts:58-79, `dom_access`, with the answer as Rust reads it. -/
def domAccess (o : World W R) (lossy : List UInt8 → String) (w : W) (mem : List UInt8) (ptr size : Nat) : Answer × W :=
  match Ts.jsValueDecode lossy mem ptr size with
  | .list items =>
      match path o w o.null items with
      | .node r w =>
          match toJsValue (o.read w r) with
          | some v => (transfer v, w)
          | none => (.exception, w)
      | .null w => (.value .undefined, w)
      | .thrown w => (.exception, w)
  | _ => (.value .undefined, w)

/-! ## Specification -/

mutual
/-- The JavaScript value that an argument stands for. -/
inductive Denotes : JsValue → Js → Prop
  | u32 (n : UInt32) : Denotes (.u32 n) (.num (intToF64 n.toNat))
  | i32 (n : Int32) : Denotes (.i32 n) (.num (intToF64 n.toInt))
  | u64 (n : UInt64) : Denotes (.u64 n) (.bigint n.toNat)
  | i64 (n : Int64) : Denotes (.i64 n) (.bigint n.toInt)
  | f64 (bits : UInt64) : Denotes (.f64 bits) (.num bits)
  | tru : Denotes .tru (.bool true)
  | fls : Denotes .fls (.bool false)
  | null : Denotes .null .null
  | undefined : Denotes .undefined .undefined
  | vec (b : List UInt8) : Denotes (.vec b) (.bytes b)
  | str (s : String) : Denotes (.str s) (.str s)
  | list (l : List JsValue) (js : List Js) : DenotesL l js → Denotes (.list l) (.arr js)
  | obj (l : List (String × JsValue)) (js : List (String × Js)) : DenotesO l js → Denotes (.obj l) (.obj js)
  | json (j : JsJson) (js : Js) : DenotesJ j js → Denotes (.json j) js
inductive DenotesL : List JsValue → List Js → Prop
  | nil : DenotesL [] []
  | cons (x : JsValue) (xs : List JsValue) (y : Js) (ys : List Js) : Denotes x y → DenotesL xs ys → DenotesL (x :: xs) (y :: ys)
inductive DenotesO : List (String × JsValue) → List (String × Js) → Prop
  | nil : DenotesO [] []
  | cons (k : String) (x : JsValue) (xs : List (String × JsValue)) (y : Js) (ys : List (String × Js)) :
      Denotes x y → DenotesO xs ys → DenotesO ((k, x) :: xs) ((k, y) :: ys)
/-- The JavaScript value that a JSON value is. -/
inductive DenotesJ : JsJson → Js → Prop
  | tru : DenotesJ .tru (.bool true)
  | fls : DenotesJ .fls (.bool false)
  | null : DenotesJ .null .null
  | str (s : String) : DenotesJ (.str s) (.str s)
  | num (bits : UInt64) : DenotesJ (.num bits) (.num bits)
  | list (l : List JsJson) (js : List Js) : DenotesJL l js → DenotesJ (.list l) (.arr js)
  | obj (l : List (String × JsJson)) (js : List (String × Js)) : DenotesJO l js → DenotesJ (.obj l) (.obj js)
inductive DenotesJL : List JsJson → List Js → Prop
  | nil : DenotesJL [] []
  | cons (x : JsJson) (xs : List JsJson) (y : Js) (ys : List Js) : DenotesJ x y → DenotesJL xs ys → DenotesJL (x :: xs) (y :: ys)
inductive DenotesJO : List (String × JsJson) → List (String × Js) → Prop
  | nil : DenotesJO [] []
  | cons (k : String) (x : JsJson) (xs : List (String × JsJson)) (y : Js) (ys : List (String × Js)) :
      DenotesJ x y → DenotesJO xs ys → DenotesJO ((k, x) :: xs) ((k, y) :: ys)
end

/-- The Rust value that a JavaScript value should arrive as. -/
inductive Arrives : Js → JsValue → Prop
  | undefined : Arrives .undefined .undefined
  | null : Arrives .null .null
  | tru : Arrives (.bool true) .tru
  | fls : Arrives (.bool false) .fls
  | str (s : String) : Arrives (.str s) (.str s)
  | int (n : Int32) : Arrives (.num (intToF64 n.toInt)) (.i32 n)
  | negativeZero : Arrives (.num (2 ^ 63)) (.i32 0)
  | float (bits : UInt64) : (∀ n : Int32, bits ≠ intToF64 n.toInt) → bits ≠ 2 ^ 63 → Arrives (.num bits) (.f64 bits)
  | bigint (n : Int64) : Arrives (.bigint n.toInt) (.i64 n)
  | bytes (b : List UInt8) : Arrives (.bytes b) (.vec b)
  | list (l : List JsJson) (js : Js) : DenotesJ (.list l) js → Arrives js (.json (.list l))
  | obj (l : List (String × JsJson)) (js : Js) : DenotesJ (.obj l) js → Arrives js (.json (.obj l))

/-- Values are built for the arguments, from left to right. -/
inductive Builds (o : World W R) : W → List Js → List R → W → Prop
  | nil (w : W) : Builds o w [] [] w
  | cons (w w' : W) (j : Js) (js : List Js) (rs : List R) : Builds o (o.give w j).2 js rs w' →
      Builds o w (j :: js) ((o.give w j).1 :: rs) w'

/-- Properties of `r` are read, from left to right; `none`: one of them threw an exception. -/
inductive Reads (o : World W R) (r : R) : W → List String → Option (List (String × Js)) → W → Prop
  | nil (w : W) : Reads o r w [] (some []) w
  | cons (w w' : W) (n : String) (ns : List String) (v : R) (js : List (String × Js)) : (o.get w r n).1 = some v →
      Reads o r (o.get w r n).2 ns (some js) w' → Reads o r w (n :: ns) (some ((n, o.read (o.get w r n).2 v) :: js)) w'
  | later (w w' : W) (n : String) (ns : List String) (v : R) : (o.get w r n).1 = some v →
      Reads o r (o.get w r n).2 ns none w' → Reads o r w (n :: ns) none w'
  | fails (w : W) (n : String) (ns : List String) : (o.get w r n).1 = none → Reads o r w (n :: ns) none (o.get w r n).2

/-- A step of a chain of accesses, from the value `r` in the state `w` to the value `r'` in the state
`w'`; `none`: an exception, or there is no such thing. -/
inductive Does (o : World W R) : Access → W → R → Option R → W → Prop
  | api (w : W) (r : R) : Does o .api w r (some o.api) w
  | window (w : W) (r : R) : Does o (.root "window") w r (some o.window) w
  | document (w : W) (r : R) : Does o (.root "document") w r (some o.document) w
  | noRoot (name : String) (w : W) (r : R) : name ≠ "window" → name ≠ "document" → Does o (.root name) w r none w
  | element (id : UInt64) (w : W) (r : R) : Does o (.element id) w r (o.node w id.toNat) w
  | get (name : String) (w : W) (r : R) : Does o (.get name) w r (o.get w r name).1 (o.get w r name).2
  | set (name : String) (value : JsValue) (js : Js) (w : W) (r : R) : Denotes value js →
      (o.set (o.give w js).2 r name (o.give w js).1).1 = true →
      Does o (.set name value) w r (some o.undefined) (o.set (o.give w js).2 r name (o.give w js).1).2
  | setFails (name : String) (value : JsValue) (js : Js) (w : W) (r : R) : Denotes value js →
      (o.set (o.give w js).2 r name (o.give w js).1).1 = false →
      Does o (.set name value) w r none (o.set (o.give w js).2 r name (o.give w js).1).2
  | call (name : String) (params : List JsValue) (js : List Js) (args : List R) (w w' : W) (r : R) :
      DenotesL params js → Builds o w js args w' →
      Does o (.call name params) w r (o.call w' r name args).1 (o.call w' r name args).2
  | getProps (names : List String) (w w' : W) (r : R) (js : List (String × Js)) : Reads o r w names (some js) w' →
      Does o (.getProps names) w r (some (o.give w' (.obj js)).1) (o.give w' (.obj js)).2
  | getPropsFails (names : List String) (w w' : W) (r : R) : Reads o r w names none w' → Does o (.getProps names) w r none w'

/-- A chain: each step starts from the value of the one before; the first exception ends it. -/
inductive Chain (o : World W R) : List Access → W → R → Option R → W → Prop
  | nil (w : W) (r : R) : Chain o [] w r (some r) w
  | cons (a : Access) (as : List Access) (w w' w'' : W) (r r' : R) (res : Option R) : Does o a w r (some r') w' →
      Chain o as w' r' res w'' → Chain o (a :: as) w r res w''
  | fails (a : Access) (as : List Access) (w w' : W) (r : R) : Does o a w r none w' → Chain o (a :: as) w r none w'

/-- Steps other than `element` and `get_props`. -/
def Access.Plain : Access → Prop
  | .element _ | .getProps _ => False
  | _ => True

/-! ## Proofs -/

theorem objSet_new {β : Type} (l : List (String × β)) (k : String) (v : β) (hk : k ≠ "__proto__") (h : k ∉ l.map (·.1)) :
    Ts.objSet l k v = l ++ [(k, v)] := by
  simp [Ts.objSet, hk, mapInsert_new l k v h]

/-! ### Arguments -/

mutual
theorem denotesJ_iff : ∀ {j : JsJson} {js : Js}, DenotesJ j js → ofJson j = js
  | _, _, .tru => rfl
  | _, _, .fls => rfl
  | _, _, .null => rfl
  | _, _, .str _ => rfl
  | _, _, .num _ => rfl
  | _, _, .list _ _ h => by rw [ofJson, denotesJL_iff h]
  | _, _, .obj _ _ h => by rw [ofJson, denotesJO_iff h]
theorem denotesJL_iff : ∀ {j : List JsJson} {js : List Js}, DenotesJL j js → ofJsonL j = js
  | _, _, .nil => rfl
  | _, _, .cons _ _ _ _ h h' => by rw [ofJsonL, denotesJ_iff h, denotesJL_iff h']
theorem denotesJO_iff : ∀ {j : List (String × JsJson)} {js : List (String × Js)}, DenotesJO j js → ofJsonO j = js
  | _, _, .nil => rfl
  | _, _, .cons _ _ _ _ _ h h' => by rw [ofJsonO, denotesJ_iff h, denotesJO_iff h']
end

mutual
theorem denotes_iff : ∀ {v : JsValue} {js : Js}, Denotes v js → v.WF → Ts.JsSafe v → fromJsValue v = js
  | _, _, .u32 _, _, _ => rfl
  | _, _, .i32 _, _, _ => rfl
  | _, _, .u64 _, _, _ => rfl
  | _, _, .i64 _, _, _ => rfl
  | _, _, .f64 _, _, _ => rfl
  | _, _, .tru, _, _ => rfl
  | _, _, .fls, _, _ => rfl
  | _, _, .null, _, _ => rfl
  | _, _, .undefined, _, _ => rfl
  | _, _, .vec _, _, _ => rfl
  | _, _, .str _, _, _ => rfl
  | _, _, .list _ _ h, hw, hs => by
      rw [fromJsValue, denotesL_iff h (by simpa [JsValue.WF] using hw) (by simpa [Ts.JsSafe] using hs)]
  | _, _, .obj _ _ h, hw, hs => by
      simp only [JsValue.WF] at hw
      rw [fromJsValue, denotesO_iff h [] (by simpa using hw.1) hw.2.2 (by simpa [Ts.JsSafe] using hs)]
      simp
  | _, _, .json _ _ h, _, _ => by rw [fromJsValue, denotesJ_iff h]
theorem denotesL_iff : ∀ {v : List JsValue} {js : List Js}, DenotesL v js → JsValue.WFL v → Ts.JsSafeL v → fromJsValueL v = js
  | _, _, .nil, _, _ => rfl
  | _, _, .cons _ _ _ _ h h', hw, hs => by
      simp only [JsValue.WFL] at hw
      simp only [Ts.JsSafeL] at hs
      rw [fromJsValueL, denotes_iff h hw.1 hs.1, denotesL_iff h' hw.2 hs.2]
theorem denotesO_iff : ∀ {v : List (String × JsValue)} {js : List (String × Js)}, DenotesO v js →
    ∀ acc : List (String × Js), (acc.map (·.1) ++ v.map (·.1)).Nodup → JsValue.WFO v → Ts.JsSafeO v → fromJsValueO acc v = acc ++ js
  | _, _, .nil, acc, _, _, _ => by simp [fromJsValueO]
  | _, _, .cons k x xs y ys h h', acc, hd, hw, hs => by
      simp only [JsValue.WFO] at hw
      simp only [Ts.JsSafeO] at hs
      have hk : k ∉ acc.map (·.1) := by
        intro hk
        rw [List.map_cons, List.nodup_append] at hd
        exact hd.2.2 k hk k (by simp) rfl
      rw [fromJsValueO, denotes_iff h hw.1 hs.2.2.1, objSet_new _ _ _ hs.2.1 hk,
        denotesO_iff h' _ (by simpa using hd) hw.2 hs.2.2.2]
      simp
end

theorem fromJsValueL_eq_map : ∀ l : List JsValue, fromJsValueL l = l.map fromJsValue
  | [] => rfl
  | x :: xs => by rw [fromJsValueL, fromJsValueL_eq_map xs]; rfl

theorem builds_iff {o : World W R} {w w' : W} {js : List Js} {rs : List R} (h : Builds o w js rs w') : o.giveAll w js = (rs, w') := by
  induction h with
  | nil w => rfl
  | cons w w' j js rs _ ih => simp [World.giveAll, ih]

/-! ### Chains -/

/-- How the step ends in the code. -/
def asNext (w : W) : Option R → Next W R
  | some r => .node r w
  | none => .null w

theorem next_does {o : World W R} {a : Access} (ha : a.Plain) (hw : a.item.WF) (hs : Ts.JsSafe a.item) {w w' : W} {r : R} {res : Option R}
    (h : Does o a w r res w') : next o w r a.item = asNext w' res := by
  cases h with
  | api => rfl
  | window => rfl
  | document => rfl
  | noRoot name _ _ h1 h2 => simp [Access.item, next, nextRoot, h1, h2, asNext]
  | element => exact ha.elim
  | get name =>
    simp only [Access.item, next, nextGet, getByProperty]
    rw [if_neg (by decide), if_neg (by decide), if_pos trivial]
    rcases h : o.get w r name with ⟨_ | v, w'⟩ <;> rfl
  | set name value js _ _ hd ht =>
    simp only [Access.item, JsValue.WF, JsValue.WFL, Ts.JsSafe, Ts.JsSafeL] at hw hs
    have he := denotes_iff hd hw.2.2.1 hs.2.2.1
    simp only [Access.item, next, nextSet, nextSet.set, he]
    rw [if_neg (by decide), if_neg (by decide), if_neg (by decide), if_pos trivial]
    rcases h : o.set (o.give w js).2 r name (o.give w js).1 with ⟨_ | _, w'⟩
    · rw [h] at ht; cases ht
    · rfl
  | setFails name value js _ _ hd ht =>
    simp only [Access.item, JsValue.WF, JsValue.WFL, Ts.JsSafe, Ts.JsSafeL] at hw hs
    have he := denotes_iff hd hw.2.2.1 hs.2.2.1
    simp only [Access.item, next, nextSet, nextSet.set, he]
    rw [if_neg (by decide), if_neg (by decide), if_neg (by decide), if_pos trivial]
    rcases h : o.set (o.give w js).2 r name (o.give w js).1 with ⟨_ | _, w'⟩
    · rfl
    · rw [h] at ht; cases ht
  | call name params js args _ w' _ hd hb =>
    simp only [Access.item, JsValue.WF, JsValue.WFL, Ts.JsSafe, Ts.JsSafeL] at hw hs
    have he := denotesL_iff hd hw.2.2 hs.2.2
    rw [fromJsValueL_eq_map] at he
    simp only [Access.item, next, nextCall, he, builds_iff hb]
    rw [if_neg (by decide), if_neg (by decide), if_neg (by decide), if_neg (by decide), if_pos trivial]
    rcases h : o.call w' r name args with ⟨_ | v, w''⟩ <;> rfl
  | getProps => exact ha.elim
  | getPropsFails => exact ha.elim

theorem path_chain {o : World W R} {as : List Access} {w w' : W} {r : R} {res : Option R} (h : Chain o as w r res w')
    (ha : ∀ a ∈ as, a.Plain) (hw : ∀ a ∈ as, a.item.WF) (hs : ∀ a ∈ as, Ts.JsSafe a.item) (more : List JsValue) :
    path o w r (as.map Access.item ++ more) = res.elim (.null w') fun r' => path o w' r' more := by
  induction h with
  | nil w r => simp
  | cons a as w w' w'' r r' res hd _ ih =>
    simp only [List.map_cons, List.cons_append, path]
    rw [next_does (ha a (by simp)) (hw a (by simp)) (hs a (by simp)) hd]
    exact ih (fun a h => ha a (by simp [h])) (fun a h => hw a (by simp [h])) (fun a h => hs a (by simp [h]))
  | fails a as w w' r hd =>
    simp only [List.map_cons, List.cons_append, path]
    rw [next_does (ha a (by simp)) (hw a (by simp)) (hs a (by simp)) hd]
    rfl

/-! ### Results -/

theorem asInt32_int (n : Int32) : asInt32 (intToF64 n.toInt) = some n := by
  have h3 := Int32.le_toInt n
  have h4 : n.toInt ≤ 2 ^ 31 - 1 := Int.le_sub_one_of_lt (Int32.toInt_lt n)
  have hc : f64ToInt (-2 ^ 31) (2 ^ 31 - 1) (intToF64 n.toInt) = n.toInt :=
    Json.cast_roundtrip (by omega) (Json.representable_of_lt (by omega)) h3 h4
  simp only [asInt32, hc]
  simp

theorem asInt32_some {bits : UInt64} {n : Int32} (h : asInt32 bits = some n) : bits = intToF64 n.toInt ∨ bits = 2 ^ 63 := by
  unfold asInt32 at h
  simp only at h
  split at h
  · rename_i hc
    injection h with h
    rcases hc with hc | hc
    · left
      subst h
      have hb : -2 ^ 31 ≤ f64ToInt (-2 ^ 31) (2 ^ 31 - 1) bits ∧ f64ToInt (-2 ^ 31) (2 ^ 31 - 1) bits ≤ 2 ^ 31 - 1 := by
        unfold f64ToInt
        simp only
        repeat' split
        all_goals omega
      rw [Int32.toInt_ofInt_of_le (by simpa using hb.1) (by omega)]
      exact hc
    · exact .inr hc
  · cases h

theorem asInt32_negativeZero : asInt32 (2 ^ 63) = some 0 := by decide +kernel

theorem toJsValue_num_int (n : Int32) : toJsValue (.num (intToF64 n.toInt)) = some (.i32 n) := by
  simp only [toJsValue, asInt32_int]

mutual
theorem toJson_of : ∀ (j : JsJson), j.WF → Ts.JsSafeJ j → toJsJson (ofJson j) = some j
  | .tru, _, _ => rfl
  | .fls, _, _ => rfl
  | .null, _, _ => rfl
  | .str _, _, _ => rfl
  | .num _, _, _ => rfl
  | .list l, hw, hs => by
      simp only [ofJson, toJsJson]
      rw [toJsonL_of l (by simpa [JsJson.WF] using hw) (by simpa [Ts.JsSafeJ] using hs)]; rfl
  | .obj l, hw, hs => by
      simp only [JsJson.WF] at hw
      simp only [ofJson, toJsJson]
      rw [toJsonO_of l [] (by simpa using hw.1) hw.2.2 (by simpa [Ts.JsSafeJ] using hs)]; rfl
theorem toJsonL_of : ∀ (l : List JsJson), JsJson.WFL l → Ts.JsSafeJL l → toJsJsonL (ofJsonL l) = some l
  | [], _, _ => rfl
  | x :: xs, hw, hs => by
      simp only [JsJson.WFL] at hw
      simp only [Ts.JsSafeJL] at hs
      simp only [ofJsonL, toJsJsonL, toJson_of x hw.1 hs.1, toJsonL_of xs hw.2 hs.2]; rfl
theorem toJsonO_of : ∀ (l acc : List (String × JsJson)), (acc.map (·.1) ++ l.map (·.1)).Nodup → JsJson.WFO l → Ts.JsSafeJO l →
    toJsJsonO acc (ofJsonO l) = some (acc ++ l)
  | [], acc, _, _, _ => by simp [ofJsonO, toJsJsonO]
  | (k, x) :: xs, acc, hd, hw, hs => by
      simp only [JsJson.WFO] at hw
      simp only [Ts.JsSafeJO] at hs
      have hk : k ∉ acc.map (·.1) := by
        intro hk
        rw [List.map_cons, List.nodup_append] at hd
        exact hd.2.2 k hk k (by simp) rfl
      simp only [ofJsonO, toJsJsonO, toJson_of x hw.1 hs.2.2.1]
      show toJsJsonO (Ts.objSet acc k x) _ = _
      rw [objSet_new _ _ _ hs.2.1 hk, toJsonO_of xs _ (by simpa using hd) hw.2 hs.2.2.2]
      simp
end

theorem arrives_value {js : Js} {v : JsValue} (h : Arrives js v) (hw : v.WF) (hs : Ts.JsSafe v) : toJsValue js = some v := by
  cases h with
  | undefined => rfl
  | null => rfl
  | tru => rfl
  | fls => rfl
  | str => rfl
  | int n => exact toJsValue_num_int n
  | negativeZero => simp only [toJsValue, asInt32_negativeZero]
  | float bits h1 h2 =>
    simp only [toJsValue]
    cases h : asInt32 bits with
    | none => rfl
    | some n =>
      rcases asInt32_some h with h | h
      · exact absurd h (h1 n)
      · exact absurd h h2
  | bigint n => simp [toJsValue]
  | bytes => rfl
  | list l js h =>
    simp only [JsValue.WF, JsJson.WF] at hw
    simp only [Ts.JsSafe, Ts.JsSafeJ] at hs
    rw [← denotesJ_iff h]
    simp only [ofJson, toJsValue, toJsonL_of l hw hs]
  | obj l js h =>
    simp only [JsValue.WF, JsJson.WF] at hw
    simp only [Ts.JsSafe, Ts.JsSafeJ] at hs
    rw [← denotesJ_iff h]
    simp only [ofJson, toJsValue, toJsonO_of l [] (by simpa using hw.1) hw.2.2 hs]
    rfl

theorem arrives_noObject {js : Js} {v : JsValue} (h : Arrives js v) : v.NoObject := by
  cases h <;> trivial

theorem transfer_ok {v : JsValue} (hw : v.WF) (ho : v.NoObject) (hl : v.wireLen + 1 < 2 ^ 32) : transfer v = .value v := by
  obtain ⟨bytes, h1, h2⟩ := C17_ts_to_rust_partial v hw ho hl
  cases v <;> simp only [transfer, h1, h2]

/-! ## Theorems -/

/-- The chain `as` is in the memory at `ptr`, as Rust wrote it. -/
def Sent (as : List Access) (mem : List UInt8) (ptr size : Nat) : Prop :=
  ∃ w post, (build as).toSnapshot = .ok w ∧ mem.drop ptr = w.written ++ post ∧ ptr ≤ mem.length ∧ size = w.size

theorem wf_items {as : List Access} (h : (build as).WF) : ∀ a ∈ as, a.item.WF := by
  simp only [build, JsValue.WF] at h
  induction as with
  | nil => simp
  | cons a as ih =>
    simp only [List.map_cons, JsValue.WFL] at h
    simpa using ⟨h.1, ih h.2⟩

theorem safe_items {as : List Access} (h : Ts.JsSafe (build as)) : ∀ a ∈ as, Ts.JsSafe a.item := by
  simp only [build, Ts.JsSafe] at h
  induction as with
  | nil => simp
  | cons a as ih =>
    simp only [List.map_cons, Ts.JsSafeL] at h
    simpa using ⟨h.1, ih h.2⟩

theorem sent_decode {as : List Access} (hw : (build as).WF) (hs : Ts.JsSafe (build as)) (hl : (build as).wireLen < 2 ^ 32)
    {mem : List UInt8} {ptr size : Nat} (h : Sent as mem ptr size) (lossy : List UInt8 → String) :
    Ts.jsValueDecode lossy mem ptr size = .list (as.map Access.item) := by
  obtain ⟨w, post, h1, h2, h3, rfl⟩ := h
  exact C17_rust_to_ts_partial lossy _ hw hs hl mem ptr w h1 post h2 h3

/-- **C51, chains** (partial). A chain of `api`, `root`, `get`, `set` and `call` does in the browser what it
says, and the value of its last step arrives in Rust. If a step throws an exception the rest of the chain is not executed and
`Undefined` arrives. Missing: `element` (`C51_element_violated`), `get_props` on other values than strings, booleans and null
(`C51_props_violated`, `C51_props_partial`), values that do not convert (`C51_result_violated`). -/
theorem C51_chain_partial (o : World W R) (lossy : List UInt8 → String) (as : List Access) (hp : ∀ a ∈ as, a.Plain)
    (hw : (build as).WF) (hs : Ts.JsSafe (build as)) (hl : (build as).wireLen < 2 ^ 32)
    (mem : List UInt8) (ptr size : Nat) (hm : Sent as mem ptr size) (w w' : W) (res : Option R) (h : Chain o as w o.null res w') :
    (res = none → domAccess o lossy w mem ptr size = (.value .undefined, w')) ∧
    ∀ r v, res = some r → Arrives (o.read w' r) v → v.WF → Ts.JsSafe v → v.wireLen + 1 < 2 ^ 32 →
      domAccess o lossy w mem ptr size = (.value v, w') := by
  have hpath := path_chain h hp (wf_items hw) (safe_items hs) []
  simp only [List.append_nil] at hpath
  constructor
  · rintro rfl
    simp only [domAccess, sent_decode hw hs hl hm, hpath, Option.elim]
  · rintro r v rfl ha hvw hvs hvl
    simp only [domAccess, sent_decode hw hs hl hm, hpath, Option.elim, path, arrives_value ha hvw hvs]
    rw [transfer_ok hvw (arrives_noObject ha) hvl]

/-- Strings, booleans and null. -/
inductive Simple : Js → JsJson → Prop
  | tru : Simple (.bool true) .tru
  | fls : Simple (.bool false) .fls
  | null : Simple .null .null
  | str (s : String) : Simple (.str s) (.str s)

/-- Each property with its value. -/
inductive SimpleO : List (String × Js) → List (String × JsJson) → Prop
  | nil : SimpleO [] []
  | cons (k : String) (x : Js) (xs : List (String × Js)) (y : JsJson) (ys : List (String × JsJson)) :
      Simple x y → SimpleO xs ys → SimpleO ((k, x) :: xs) ((k, y) :: ys)

theorem simple_reify {x : Js} {y : JsJson} (h : Simple x y) : ∃ v, toJsValue x = some v ∧ reify v = x := by
  cases h
  · exact ⟨.tru, rfl, rfl⟩
  · exact ⟨.fls, rfl, rfl⟩
  · exact ⟨.null, rfl, rfl⟩
  · exact ⟨.str _, rfl, rfl⟩

theorem simpleO_denotes {js : List (String × Js)} {l : List (String × JsJson)} (h : SimpleO js l) : DenotesJO l js := by
  induction h with
  | nil => exact .nil
  | cons k x xs y ys hx _ ih =>
    refine .cons k y ys x xs ?_ ih
    cases hx
    · exact .tru
    · exact .fls
    · exact .null
    · exact .str _

theorem reads_loop {o : World W R} {r : R} {w w' : W} {names : List String} {res : Option (List (String × Js))}
    (h : Reads o r w names res w') {js : List (String × Js)} (hres : res = some js) {l : List (String × JsJson)} (hl : SimpleO js l) :
    ∀ acc : List (String × Js), (acc.map (·.1) ++ js.map (·.1)).Nodup → (∀ e ∈ js, e.1 ≠ "__proto__") →
      propsLoop o w r acc (names.map .str) = .node (o.give w' (.obj (acc ++ js))).1 (o.give w' (.obj (acc ++ js))).2 := by
  induction h generalizing js l with
  | nil w => intro acc _ _; cases hres; simp [propsLoop]
  | cons w w' n ns v js' hv _ ih =>
    intro acc hd hp
    cases hres
    cases hl with
    | cons _ x xs y ys hx hxs =>
      obtain ⟨u, hu, hr⟩ := simple_reify hx
      have hg : o.get w r n = (some v, (o.get w r n).2) := by rw [← hv]
      simp only [List.map_cons, propsLoop, getByProperty]
      rw [hg]
      simp only [hu, hr]
      have hk : n ∉ acc.map (·.1) := by
        intro hk
        rw [List.map_cons, List.nodup_append] at hd
        exact hd.2.2 n hk n (by simp) rfl
      have hn : n ≠ "__proto__" := hp (n, _) List.mem_cons_self
      rw [objSet_new _ _ _ hn hk, ih rfl hxs _ (by simpa using hd) (fun e he => hp e (by simp [he]))]
      simp
  | later => cases hres
  | fails => cases hres

/-- The glue code sees the values it has built. -/
def World.Ok (o : World W R) : Prop := ∀ (w : W) (j : Js), o.read (o.give w j).2 (o.give w j).1 = j

/-- **C51, several properties** (partial). `get_props` after a chain of the other accesses gives an object with the
properties, if they are strings, booleans or null. Missing: other values (`C51_props_violated`). -/
theorem C51_props_partial (o : World W R) (ho : o.Ok) (lossy : List UInt8 → String) (as : List Access) (names : List String)
    (hp : ∀ a ∈ as, a.Plain) (hw : (build (as ++ [.getProps names])).WF) (hs : Ts.JsSafe (build (as ++ [.getProps names])))
    (hl : (build (as ++ [.getProps names])).wireLen < 2 ^ 32) (mem : List UInt8) (ptr size : Nat)
    (hm : Sent (as ++ [.getProps names]) mem ptr size) (w w' w'' : W) (r : R) (h : Chain o as w o.null (some r) w')
    (js : List (String × Js)) (hr : Reads o r w' names (some js) w'') (l : List (String × JsJson)) (hj : SimpleO js l)
    (hlw : (JsJson.obj l).WF) (hls : Ts.JsSafeJ (.obj l)) (hll : (JsJson.obj l).wireLen + 2 < 2 ^ 32) :
    domAccess o lossy w mem ptr size = (.value (.json (.obj l)), (o.give w'' (.obj js)).2) := by
  have hwi := wf_items hw
  have hsi := safe_items hs
  have hpath := path_chain h hp (fun a ha => hwi a (by simp [ha])) (fun a ha => hsi a (by simp [ha])) [Access.item (.getProps names)]
  have hd := sent_decode hw hs hl hm lossy
  rw [List.map_append] at hd
  have hk : js.map (·.1) = l.map (·.1) := by
    clear hr hlw hls hll
    induction hj with
    | nil => rfl
    | cons k x xs y ys _ _ ih => simp [ih]
  have hnd : (js.map (·.1)).Nodup := by rw [hk]; simp only [JsJson.WF] at hlw; exact hlw.1
  have hpr : ∀ e ∈ js, e.1 ≠ "__proto__" := by
    intro e he
    have : e.1 ∈ l.map (·.1) := by rw [← hk]; exact List.mem_map_of_mem he
    obtain ⟨e', he', h⟩ := List.mem_map.mp this
    rw [← h]
    simp only [Ts.JsSafeJ] at hls
    clear hm hd hk hj hlw hll this h
    induction l with
    | nil => simp at he'
    | cons x xs ih =>
      obtain ⟨k, x⟩ := x
      simp only [Ts.JsSafeJO] at hls
      simp only [List.mem_cons] at he'
      rcases he' with rfl | he'
      · exact hls.2.1
      · exact ih hls.2.2.2 he'
  have hloop := reads_loop hr rfl hj [] (by simpa using hnd) hpr
  simp only [List.nil_append] at hloop
  simp only [domAccess, hd]
  rw [show ([Access.getProps names].map Access.item) = [Access.item (.getProps names)] from rfl, hpath]
  simp only [Option.elim, path, Access.item, next]
  rw [if_neg (by decide), if_neg (by decide), if_neg (by decide), if_neg (by decide), if_neg (by decide), if_pos trivial, hloop]
  simp only
  rw [ho w'' (.obj js), arrives_value (.obj l _ (.obj l js (simpleO_denotes hj))) (by simpa [JsValue.WF] using hlw) (by simpa [Ts.JsSafe] using hls)]
  simp only
  rw [transfer_ok (by simpa [JsValue.WF] using hlw) (by simp [JsValue.NoObject]) (by simp only [JsValue.wireLen]; omega)]

/-- **C51, violated: nodes.** An access to a node (`DomElementRef::dom_access`) never does anything: the id is sent as `U64`
and the browser accepts `U32` and `I32`. This holds for every node, and for whatever follows in the chain. -/
theorem C51_element_violated (o : World W R) (lossy : List UInt8 → String) (id : UInt64) (as : List Access)
    (hw : (build (.element id :: as)).WF) (hs : Ts.JsSafe (build (.element id :: as))) (hl : (build (.element id :: as)).wireLen < 2 ^ 32)
    (mem : List UInt8) (ptr size : Nat) (hm : Sent (.element id :: as) mem ptr size) (w : W) :
    domAccess o lossy w mem ptr size = (.value .undefined, w) := by
  simp only [domAccess, sent_decode hw hs hl hm, List.map_cons, path, Access.item, next]
  rw [if_neg (by decide), if_pos trivial]
  rfl

/-- **C51, violated: numbers in `get_props`.** The value of a property that is an integer arrives as the object
`{"type": 2, "value": n}`: it is converted twice. -/
theorem C51_props_violated (o : World W R) (ho : o.Ok) (lossy : List UInt8 → String) (w w' : W) (v : R) (n : Int32)
    (hg : o.get w o.window "innerWidth" = (some v, w')) (hv : o.read w' v = .num (intToF64 n.toInt)) (mem : List UInt8) (ptr size : Nat)
    (hm : Sent [.root "window", .getProps ["innerWidth"]] mem ptr size) :
    (domAccess o lossy w mem ptr size).1 =
      .value (.json (.obj [("innerWidth", .obj [("type", .num (intToF64 2)), ("value", .num (intToF64 n.toInt))])])) := by
  have hd := sent_decode (as := [.root "window", .getProps ["innerWidth"]]) (by simp [build, Access.item, JsValue.WF, JsValue.WFL])
    (by simp only [build, Access.item, List.map, Ts.JsSafe, Ts.JsSafeL]; decide)
    (by simp only [build, Access.item, List.map, JsValue.wireLen, JsValue.wireLenL]; decide) hm lossy
  have hpath : path o w o.null ([Access.root "window", .getProps ["innerWidth"]].map Access.item) =
      match propsLoop o w o.window [] [.str "innerWidth"] with
      | .node r w => .node r w
      | .null w => .null w
      | .thrown w => .thrown w := rfl
  simp only [propsLoop, getByProperty, hg, hv, toJsValue_num_int, reify] at hpath
  simp only [domAccess, hd, hpath]
  rw [ho w', show Ts.objSet ([] : List (String × Js)) "innerWidth" (.obj [("type", .num (intToF64 2)), ("value", .num (intToF64 n.toInt))]) =
    [("innerWidth", .obj [("type", .num (intToF64 2)), ("value", .num (intToF64 n.toInt))])] from rfl]
  rw [arrives_value (.obj [("innerWidth", .obj [("type", .num (intToF64 2)), ("value", .num (intToF64 n.toInt))])] _
    (.obj _ _ (.cons _ _ _ _ _ (.obj _ _ (.cons _ _ _ _ _ (.num _) (.cons _ _ _ _ _ (.num _) .nil))) .nil)))
    (by simp [JsValue.WF, JsJson.WF, JsJson.WFO]) (by simp only [Ts.JsSafe, Ts.JsSafeJ, Ts.JsSafeJO]; decide)]
  simp only
  rw [transfer_ok (by simp [JsValue.WF, JsJson.WF, JsJson.WFO]) (by simp [JsValue.NoObject]) (by simp only [JsValue.wireLen, JsJson.wireLen, JsJson.wireLenO]; decide)]

/-- **C51, violated: values that do not arrive.** The object `{a: undefined}` and the array `[undefined]` arrive as `Undefined`, and a
function ends the call with an exception. -/
theorem C51_result_violated (o : World W R) (lossy : List UInt8 → String) (as : List Access) (hp : ∀ a ∈ as, a.Plain)
    (hw : (build as).WF) (hs : Ts.JsSafe (build as)) (hl : (build as).wireLen < 2 ^ 32)
    (mem : List UInt8) (ptr size : Nat) (hm : Sent as mem ptr size) (w w' : W) (r : R) (h : Chain o as w o.null (some r) w') :
    (o.read w' r = .obj [("a", .undefined)] → domAccess o lossy w mem ptr size = (.value .undefined, w')) ∧
    (o.read w' r = .arr [.undefined] → domAccess o lossy w mem ptr size = (.value .undefined, w')) ∧
    (o.read w' r = .other → domAccess o lossy w mem ptr size = (.exception, w')) := by
  have hpath := path_chain h hp (wf_items hw) (safe_items hs) []
  simp only [List.append_nil] at hpath
  refine ⟨?_, ?_, ?_⟩
  · intro hr
    simp only [domAccess, sent_decode hw hs hl hm, hpath, Option.elim, path, hr]
    rfl
  · intro hr
    simp only [domAccess, sent_decode hw hs hl hm, hpath, Option.elim, path, hr]
    rfl
  · intro hr
    simp only [domAccess, sent_decode hw hs hl hm, hpath, Option.elim, path, hr]
    rfl

/-- **C51, violated: `get_props` on functions.** If one of the properties is a function, the call ends with an exception of
the glue code, after any chain: Rust does not get an answer at all, not even `Undefined`. -/
theorem C51_props_function_violated (o : World W R) (lossy : List UInt8 → String) (as : List Access) (name : String) (names : List String)
    (hp : ∀ a ∈ as, a.Plain) (hw : (build (as ++ [.getProps (name :: names)])).WF) (hs : Ts.JsSafe (build (as ++ [.getProps (name :: names)])))
    (hl : (build (as ++ [.getProps (name :: names)])).wireLen < 2 ^ 32) (mem : List UInt8) (ptr size : Nat)
    (hm : Sent (as ++ [.getProps (name :: names)]) mem ptr size) (w w' w'' : W) (r v : R) (h : Chain o as w o.null (some r) w')
    (hg : o.get w' r name = (some v, w'')) (hv : o.read w'' v = .other) :
    domAccess o lossy w mem ptr size = (.exception, w'') := by
  have hwi := wf_items hw
  have hsi := safe_items hs
  have hpath := path_chain h hp (fun a ha => hwi a (by simp [ha])) (fun a ha => hsi a (by simp [ha])) [Access.item (.getProps (name :: names))]
  have hd := sent_decode hw hs hl hm lossy
  rw [List.map_append] at hd
  simp only [domAccess, hd]
  rw [show ([Access.getProps (name :: names)].map Access.item) = [Access.item (.getProps (name :: names))] from rfl, hpath]
  simp only [Option.elim, path, Access.item, next, List.map_cons]
  rw [if_neg (by decide), if_neg (by decide), if_neg (by decide), if_neg (by decide), if_neg (by decide), if_pos trivial]
  simp only [propsLoop, getByProperty, hg, hv, toJsValue]

/-! ### An example -/

/-- A browser whose values are JavaScript values: `window` has a property `title`, which can be changed. -/
def exampleWorld : World String Js where
  api := .obj []
  window := .str "window"
  document := .str "document"
  null := .null
  undefined := .undefined
  node := fun _ id => if id = 4 then some (.str "node") else none
  give := fun w j => (j, w)
  read := fun _ r => r
  get := fun w r p =>
    match r with
    | .str "window" => if p = "title" then (some (.str w), w) else if p = "innerWidth" then (some (.num (intToF64 640)), w) else (some .undefined, w)
    | .null | .undefined => (none, w)
    | _ => (some .undefined, w)
  set := fun w r p v =>
    match r, v with
    | .str "window", .str t => if p = "title" then (true, t) else (true, w)
    | _, _ => (false, w)
  call := fun w _ _ _ => (none, w)

example : exampleWorld.Ok := fun _ _ => rfl

/-- `root("window").set("title", "new")`, then a chain that reads it, and one that fails. -/
example : Chain exampleWorld [.root "window", .set "title" (.str "new")] "old" .null (some .undefined) "new" :=
  .cons _ _ _ "old" _ _ (.str "window") _ (.window _ _)
    (.cons _ _ _ "new" _ _ .undefined _ (.set (o := exampleWorld) "title" (.str "new") (.str "new") "old" (.str "window") (.str _) rfl) (.nil _ _))
example : Chain exampleWorld [.root "window", .get "title"] "new" .null (some (.str "new")) "new" :=
  .cons _ _ _ "new" _ _ (.str "window") _ (.window _ _) (.cons _ _ _ "new" _ _ (.str "new") _ (.get (o := exampleWorld) "title" "new" (.str "window")) (.nil _ _))
example : Chain exampleWorld [.get "title"] "new" .null none "new" := .fails _ _ _ _ _ (.get (o := exampleWorld) "title" "new" .null)

example (lossy : List UInt8 → String) (w : MemWrite) (h : (build [.root "window", .get "title"]).toSnapshot = .ok w) :
    domAccess exampleWorld lossy "new" w.written 0 w.size = (.value (.str "new"), "new") := by
  refine (C51_chain_partial exampleWorld lossy [.root "window", .get "title"] (by simp [Access.Plain])
    (by simp [build, Access.item, JsValue.WF, JsValue.WFL]) (by simp only [build, Access.item, List.map, Ts.JsSafe, Ts.JsSafeL]; decide)
    (by simp only [build, Access.item, List.map, JsValue.wireLen, JsValue.wireLenL]; decide) w.written 0 w.size
    ⟨w, [], h, by simp, Nat.zero_le _, rfl⟩ "new" "new" (some (.str "new"))
    (.cons _ _ _ "new" _ _ (.str "window") _ (.window _ _) (.cons _ _ _ "new" _ _ (.str "new") _ (.get (o := exampleWorld) "title" "new" (.str "window")) (.nil _ _)))).2
      _ _ rfl (.str "new") (by simp [JsValue.WF]) (by simp only [Ts.JsSafe]; decide) (by simp only [JsValue.wireLen]; decide)

/-- The node 4 is there, but an access to it does nothing. -/
example : exampleWorld.node "old" 4 = some (.str "node") := rfl

end Verif.Host
