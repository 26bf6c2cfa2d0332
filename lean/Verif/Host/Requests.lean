import Verif.Host.CookiesProof
import Verif.Host.Fetch
import Verif.Host.Events
/-!
# C59: requests and their answers

Sources: `crates/vertigo/src/fetch/request_builder.rs:8-13, 128-143`, `crates/vertigo/src/driver_module/api/api_import.rs:453-540`,
`crates/vertigo/src/driver_module/api/callbacks.rs:89-117`, `crates/vertigo/src/future_box.rs`,
`crates/vertigo/src/driver_module/utils/futures_spawn.rs`, `crates/vertigo/src/driver_module/src_js/api_browser/fetch.ts`,
`crates/vertigo-cli/src/serve/html/send_request.rs`, `crates/vertigo-cli/src/serve/wasm/wasm_instance.rs:189-198`.

The calls go through the model of access chains (C51), the headers and the content types are those of C47. A request is known by
the id its callback was registered under (C38), which is also that of its `FutureBox`.

Simplifications: the counter of callback ids does not overflow (a hypothesis of the theorems); other callbacks are not
registered in between. An answer that does not fit into the memory of the program (an exception of the first `wasm_callback`, after
which catchError makes another) is treated as never delivered; the theorems exclude it.
-/
namespace Verif.Host.Requests
open Verif.Codec

/-! ## Model: requests -/

/-- request_builder.rs:8-13, send_request.rs:11-16 -/
inductive RBody where
  | text (s : String)
  | json (j : Codec.JsJson)
  | binary (b : List UInt8)

/-- driver.rs:14-24 -/
inductive Method where
  | get | head | post | put | delete | connect | options | trace | patch
  deriving DecidableEq

/-- driver.rs:27-41, `to_str` -/
def Method.toStr : Method → String
  | .get => "GET" | .head => "HEAD" | .post => "POST" | .put => "PUT" | .delete => "DELETE"
  | .connect => "CONNECT" | .options => "OPTIONS" | .trace => "TRACE" | .patch => "PATCH"

/-- request_builder.rs:37-43. The headers are a map: their names are different. -/
structure Request where
  method : Method
  url : String
  headers : List (String × String)
  body : Option RBody

/-- What the browser provides: `TextDecoder` of the decoder of arguments, whether `new Headers` accepts a record,
`JSON.stringify`, `response.json()` and `response.text()` of the bytes of a response, and of Rust the formatting `{:#?}` of a body. -/
structure Platform where
  lossy : List UInt8 → String
  accepts : Headers → Bool
  stringify : Js → String
  parse : List UInt8 → Except String Codec.JsJson
  decode : List UInt8 → String
  debug : RBody → String

/-- The body of a request as it is sent. -/
inductive Payload where
  | text (s : String)
  | bytes (b : List UInt8)

/-- A request as it is sent: the method, the address, the value of each header (by lower case name) and the body. -/
structure Wire where
  method : String
  url : String
  header : Text → Option Text
  payload : Option Payload

/-- api_import.rs:459, `FetchResult` -/
abbrev Res := Except String (UInt32 × RBody)

/-- What can be seen: `on_fetch_start` is triggered, the browser is asked to send a request, `on_fetch_stop` is triggered, the code
of the program gets the answer that it awaits. -/
inductive Entry where
  | start
  | sent (k : Nat) (w : Wire)
  | stop
  | got (k : Nat) (r : Res)

/-- The requests that are not answered yet, by callback, and what has happened so far (`log`, not in the code). -/
structure Net where
  inflight : List Nat
  log : List Entry

/-! ## Model: fetch.ts -/

/-- The record of headers. (JavaScript would convert values that are not strings; Rust does not send such.) -/
def headersOf : List (String × Js) → Option Headers
  | [] => some []
  | (n, .str v) :: l => (headersOf l).map ((n.toList, v.toList) :: ·)
  | _ => none

/-- fetch.ts:53-95, `getHeadersAndBody`; `none` is an exception of `new Headers`. -/
def getHeadersAndBody (pf : Platform) (record : Headers) (body : Js) : Option (Headers × Option Payload) :=
  if pf.accepts record then
    match body with
    | .undefined => some (browserHeaders record .none, none)
    | .str s => some (browserHeaders record .text, some (.text s))
    | .bytes b => some (browserHeaders record .binary, some (.bytes b))
    | j => some (browserHeaders record .json, some (.text (pf.stringify j)))
  else none

/-- `api`, `api.fetch`, and data. -/
inductive Val where
  | api
  | fetch
  | js (j : Js)

/-- fetch.ts:98-130 up to the call of `fetch`, in the browser as access chains see it. `getHeadersAndBody` is called outside of the
`try` of an async function: its exception rejects a promise that nobody looks at. Other calls than those Rust makes are exceptions. -/
def world (pf : Platform) : World Net Val where
  api := .api
  window := .js .other
  document := .js .other
  null := .js .null
  undefined := .js .undefined
  node := fun _ _ => none
  give := fun w j => (.js j, w)
  read := fun _ r => match r with | .js j => j | _ => .other
  get := fun w r p => match r with | .api => if p = "fetch" then (some .fetch, w) else (some (.js .undefined), w) | _ => (none, w)
  set := fun w _ _ _ => (false, w)
  call := fun w r f args =>
    match r, args with
    | .fetch, [.js (.bigint k), .js (.str method), .js (.str url), .js (.obj headers), .js body] =>
        if f = "fetch_send_request" then
          match headersOf headers with
          | none => (none, w)
          | some record =>
              match getHeadersAndBody pf record body with
              | none => (some (.js .undefined), w)
              | some (h, payload) =>
                  (some (.js .undefined), ⟨w.inflight ++ [k.toNat], w.log ++ [.sent k.toNat ⟨method, url, fun name => h.lookup name, payload⟩]⟩)
        else (none, w)
    | _, _ => (none, w)

/-- What becomes of a request: `fetch` fails with an error (as text), or there is a response with a status and the values of its
content-type headers; reading its body fails with an error or gives bytes. -/
inductive Outcome where
  | failed (message : String)
  | response (status : UInt32) (types : List (List UInt8)) (body : Except String (List UInt8))

def jsBool (b : Bool) : JsValue := if b then .tru else .fls

/-- fetch.ts:33-51, 132-181: the list that is given to `wasm_callback`. -/
def reply (pf : Platform) : Outcome → JsValue
  | .failed message => .list [.fls, .u32 0, .str message]
  | .response status types body =>
      match body with
      | .error e => .list [.fls, .u32 status, .str e]
      | .ok bytes =>
          match browserKind types with
          | .json =>
              match pf.parse bytes with
              | .ok j => .list [.tru, .u32 status, .json j]
              | .error e => .list [.fls, .u32 status, .str e]
          | .text => .list [.tru, .u32 status, .str (pf.decode bytes)]
          | .bin => .list [.tru, .u32 status, .vec bytes]

/-! ## Model: api_import.rs, future_box.rs, futures_spawn.rs -/

/-- future_box.rs:13-17 -/
structure Cell where
  waker : Bool
  result : Option Res

/-- The state: `store` are the callbacks of requests, `cells` the `FutureBox`es that the program awaits, `wakes` the timeouts of
futures_spawn.rs:42-48, by the request whose answer they were set for. -/
structure App where
  net : Net
  store : List Nat
  nextCallback : Nat
  cells : List (Nat × Cell)
  wakes : List Nat

/-- api_import.rs:511-521 -/
def headersJson (headers : List (String × String)) : Codec.JsJson := .obj (headers.map fun h => (h.1, .str h.2))

/-- api_import.rs:531-536 -/
def bodyValue : Option RBody → JsValue
  | some (.text s) => .str s
  | some (.json j) => .json j
  | some (.binary b) => .vec b
  | none => .undefined

/-- api_import.rs:523-541 -/
def send (pf : Platform) (net : Net) (k : Nat) (r : Request) : Net :=
  match (build [.api, .get "fetch", .call "fetch_send_request"
      [.u64 (UInt64.ofNat k), .str r.method.toStr, .str r.url, .json (headersJson r.headers), bodyValue r.body]]).toSnapshot with
  | .ok m => (domAccess (world pf) pf.lossy net m.written 0 m.size).2
  | _ => net

/-- request_builder.rs:128-143 with api_import.rs:453-544: the request is made and its answer is awaited at once, so its `FutureBox`
has a waker (future_box.rs:62-70). -/
def call (pf : Platform) (r : Request) (s : App) : App :=
  let k := s.nextCallback
  { net := send pf { s.net with log := s.net.log ++ [.start] } k r, store := s.store ++ [k], nextCallback := k + 1,
    cells := s.cells ++ [(k, ⟨true, none⟩)], wakes := s.wakes }

/-- api_import.rs:467-489, 493-497: the parameters of the callback. The status is read with `get_u32`, which takes no other variant. -/
def readReply (pf : Platform) : JsValue → Option Res
  | .list [.tru, .u32 status, .json j] => some (.ok (status, .json j))
  | .list [.tru, .u32 status, .str s] => some (.ok (status, .text s))
  | .list [.tru, .u32 status, .vec b] => some (.ok (status, .binary b))
  | .list [.fls, .u32 _, .json j] => some (.error (pf.debug (.json j)))
  | .list [.fls, .u32 _, .str s] => some (.error (pf.debug (.text s)))
  | .list [.fls, .u32 _, .vec b] => some (.error (pf.debug (.binary b)))
  | _ => none

/-- future_box.rs:38-43 with futures_spawn.rs:42-48 -/
def publish (k : Nat) (r : Res) (s : App) : App :=
  match s.cells.lookup k with
  | some c =>
      { s with cells := s.cells.map fun e => if e.1 = k then (k, ⟨false, some r⟩) else e,
               wakes := if c.waker then s.wakes ++ [k] else s.wakes }
  | none => s

/-- callbacks.rs:89-99, 107-111 with api_import.rs:491-506 -/
def wasmCallback (pf : Platform) (k : Nat) (v : JsValue) (s : App) : App :=
  if k ∈ s.store then
    let s := match readReply pf v with
      | some r => publish k r s
      | none => s
    { s with store := s.store.filter (· ≠ k), net := { s.net with log := s.net.log ++ [.stop] } }
  else s

/-- The browser has the outcome of a request. -/
def answer (pf : Platform) (k : Nat) (out : Outcome) (s : App) : App :=
  if k ∈ s.net.inflight then
    let s := { s with net := { s.net with inflight := s.net.inflight.filter (· ≠ k) } }
    match transfer (reply pf out) with
    | .value v => wasmCallback pf k v s
    | .exception => s
  else s

/-- future_box.rs:60-71; a future that is ready is gone. -/
def poll (k : Nat) (s : App) : App :=
  match s.cells.lookup k with
  | some ⟨_, some r⟩ =>
      { s with cells := s.cells.filter (·.1 ≠ k), net := { s.net with log := s.net.log ++ [.got k r] } }
  | some ⟨_, none⟩ => { s with cells := s.cells.map fun e => if e.1 = k then (k, ⟨true, none⟩) else e }
  | none => s

/-- What happens: the program makes a request and awaits its answer, the browser has the outcome of a request, the timeout that was
set for an answer fires, the task of the program is woken for another reason, or the program gives up waiting. -/
inductive Event where
  | call (r : Request)
  | answer (k : Nat) (out : Outcome)
  | wake (k : Nat)
  | poll (k : Nat)
  | drop (k : Nat)

def step (pf : Platform) (s : App) : Event → App
  | .call r => call pf r s
  | .answer k out => answer pf k out s
  | .wake k => if k ∈ s.wakes then poll k { s with wakes := s.wakes.erase k } else s
  | .poll k => poll k s
  | .drop k => { s with cells := s.cells.filter (·.1 ≠ k) }

/-- A program that has made no request yet. -/
def start (first : Nat) : App := ⟨⟨[], []⟩, [], first, [], []⟩

def run (pf : Platform) (s : App) (es : List Event) : App := es.foldl (step pf) s

/-! ## Model: the server -/

/-- `f64::is_finite` -/
def finite (bits : UInt64) : Bool := (bits >>> 52) &&& 0x7ff != 0x7ff

mutual
/-- send_request.rs:54-75, `convert_to_jsvalue`; `none` is the panic of `Number::from_f64(value).unwrap()`. The values of serde_json have
the same shape. -/
def convertToJsvalue : Codec.JsJson → Option Codec.JsJson
  | .num b => if finite b then some (.num b) else none
  | .list l => (convertToJsvalueL l).map .list
  | .obj l => (convertToJsvalueO l).map .obj
  | j => some j
def convertToJsvalueL : List Codec.JsJson → Option (List Codec.JsJson)
  | [] => some []
  | x :: xs => do
      let x ← convertToJsvalue x
      let xs ← convertToJsvalueL xs
      some (x :: xs)
def convertToJsvalueO : List (String × Codec.JsJson) → Option (List (String × Codec.JsJson))
  | [] => some []
  | (k, x) :: xs => do
      let x ← convertToJsvalue x
      let xs ← convertToJsvalueO xs
      some ((k, x) :: xs)
end

/-- `serde_json::to_string` and `serde_json::from_slice` (with `convert_to_jsjson`, send_request.rs:18-51). -/
structure Serde where
  write : Codec.JsJson → String
  parse : List UInt8 → Option Codec.JsJson

/-- send_request.rs:98-126, the body; the outer `none` is a panic. -/
def serverPayload (sd : Serde) : Option RBody → Option (Option Payload)
  | none => some none
  | some (.text s) => some (some (.text s))
  | some (.binary b) => some (some (.bytes b))
  | some (.json j) => (convertToJsvalue j).map fun j => some (.text (sd.write j))

def headerKind : Option RBody → Body
  | none => .none
  | some (.text _) => .text
  | some (.json _) => .json
  | some (.binary _) => .binary

def record (headers : List (String × String)) : Headers := headers.map fun h => (h.1.toList, h.2.toList)

/-- send_request.rs:178-206 for the request that the program made (the command is read as it was sent, C20); `none` is a panic
(`unreachable!()`, line 185). -/
def serverSend (sd : Serde) (r : Request) : Option Wire :=
  match r.method with
  | .get | .post =>
      (serverPayload sd r.body).map fun p =>
        ⟨r.method.toStr, r.url, fun name => (serverHeaders (record r.headers) (headerKind r.body)).lookup name, p⟩
  | _ => none

/-- send_request.rs:78-90, 206-246 with wasm_instance.rs:189-198 -/
def serverReply (sd : Serde) : Outcome → JsValue
  | .failed _ => .list [.fls, .u32 0, .str ""]
  | .response status types body =>
      match body with
      | .error _ => .list [.fls, .u32 0, .str ""]
      | .ok bytes =>
          match serverKind types with
          | .text =>
              match fromUtf8 bytes with
              | some s => .list [.tru, .u32 status, .str s]
              | none => .list [.fls, .u32 0, .str ""]
          | .json =>
              match sd.parse bytes with
              | some j => .list [.tru, .u32 status, .json j]
              | none => .list [.fls, .u32 0, .str ""]
          | .bin => .list [.tru, .u32 status, .vec bytes]

/-! ## Specification -/

/-- What a request must be on the wire; `write` writes JSON. -/
def wireOf (write : Codec.JsJson → String) (r : Request) : Wire :=
  { method := match r.method with
      | .get => "GET" | .head => "HEAD" | .post => "POST" | .put => "PUT" | .delete => "DELETE"
      | .connect => "CONNECT" | .options => "OPTIONS" | .trace => "TRACE" | .patch => "PATCH"
    url := r.url
    header := fun name =>
      (explicit (r.headers.map fun h => (h.1.toList, h.2.toList)) name).or
        (if name = "content-type".toList then
          match r.body with
          | none => none
          | some (.text _) => some "text/plain; charset=utf-8".toList
          | some (.json _) => some "application/json; charset=utf-8".toList
          | some (.binary _) => some "application/octet-stream".toList
        else none)
    payload := match r.body with
      | none => none
      | some (.text s) => some (.text s)
      | some (.json j) => some (.text (write j))
      | some (.binary b) => some (.bytes b) }

/-- The content types of a response as one text: the values joined by a comma and a space. -/
def contentType (types : List (List UInt8)) : Text := List.intercalate ", ".toList (types.map latin1)

open Classical in
/-- What the program must get for an outcome: an error, or the status with the body as JSON, text or bytes by its content type. -/
noncomputable def meaning (pf : Platform) : Outcome → Res
  | .failed message => .error (pf.debug (.text message))
  | .response _ _ (.error e) => .error (pf.debug (.text e))
  | .response status types (.ok bytes) =>
      if types ≠ [] ∧ HasType "application/json".toList (contentType types) then
        match pf.parse bytes with
        | .ok j => .ok (status, .json j)
        | .error e => .error (pf.debug (.text e))
      else if types ≠ [] ∧ HasType "text/plain".toList (contentType types) then .ok (status, .text (pf.decode bytes))
      else .ok (status, .binary bytes)

/-- Requests as the program sees them: those without an answer, those whose answer the program still awaits, the answers it has not
taken yet, and what has happened so far. -/
structure Spec where
  next : Nat
  waiting : List Nat
  listening : List Nat
  ready : List (Nat × Res)
  log : List Entry

noncomputable def Spec.take (p : Spec) (k : Nat) : Spec :=
  match p.ready.lookup k with
  | some r =>
      { p with ready := p.ready.filter (·.1 ≠ k), listening := p.listening.filter (· ≠ k), log := p.log ++ [.got k r] }
  | none => p

noncomputable def Spec.event (pf : Platform) (write : Codec.JsJson → String) (p : Spec) : Event → Spec
  | .call r =>
      { p with next := p.next + 1, waiting := p.waiting ++ [p.next], listening := p.listening ++ [p.next],
               log := p.log ++ [.start, .sent p.next (wireOf write r)] }
  | .answer k out =>
      if k ∈ p.waiting then
        { p with waiting := p.waiting.filter (· ≠ k), log := p.log ++ [.stop],
                 ready := if k ∈ p.listening then p.ready ++ [(k, meaning pf out)] else p.ready }
      else p
  | .wake k => p.take k
  | .poll k => p.take k
  | .drop k => { p with ready := p.ready.filter (·.1 ≠ k), listening := p.listening.filter (· ≠ k) }

noncomputable def Spec.run (pf : Platform) (write : Codec.JsJson → String) (first : Nat) (es : List Event) : Spec :=
  es.foldl (Spec.event pf write) ⟨first, [], [], [], []⟩

/-- `JSON.stringify` writes the JSON that a value stands for. -/
def Platform.Writes (pf : Platform) (write : Codec.JsJson → String) : Prop :=
  ∀ j js, DenotesJ j js → pf.stringify js = write j

/-- The size of a body. -/
def bodySize : Option RBody → Nat
  | some (.text s) => s.utf8ByteSize
  | some (.json j) => j.wireLen
  | some (.binary b) => b.length
  | none => 0

/-- A request of the theorems: its headers have different names when case is ignored and are accepted, its body is not a JSON text;
it has no text with a byte order mark and no header named `__proto__`, and it fits into the memory (C17). -/
structure Request.Good (pf : Platform) (r : Request) : Prop where
  names : DistinctNames (r.headers.map fun h => (h.1.toList, h.2.toList))
  accepted : pf.accepts (r.headers.map fun h => (h.1.toList, h.2.toList)) = true
  plain : ∀ s, r.body ≠ some (.json (.str s))
  few : r.headers.length < 2 ^ 16
  safeUrl : ¬ Ts.bom <+: strBytes r.url
  safeHeaders : ∀ h ∈ r.headers, ¬ Ts.bom <+: strBytes h.1 ∧ h.1 ≠ "__proto__" ∧ ¬ Ts.bom <+: strBytes h.2
  safeBody : match r.body with | some (.text s) => ¬ Ts.bom <+: strBytes s | some (.json j) => j.WF ∧ Ts.JsSafeJ j | _ => True
  size : r.url.utf8ByteSize + (r.headers.map fun h => h.1.utf8ByteSize + h.2.utf8ByteSize + 10).sum + bodySize r.body < 2 ^ 32 - 1000

/-- An outcome of the theorems: what the program is told fits into its memory. -/
def Outcome.Fits (pf : Platform) : Outcome → Prop
  | .failed message => message.utf8ByteSize < 2 ^ 32 - 1000
  | .response _ _ (.error e) => e.utf8ByteSize < 2 ^ 32 - 1000
  | .response _ _ (.ok bytes) =>
      bytes.length < 2 ^ 32 - 1000 ∧ (pf.decode bytes).utf8ByteSize < 2 ^ 32 - 1000 ∧
        match pf.parse bytes with
        | .ok j => j.WF ∧ j.wireLen < 2 ^ 32 - 1000
        | .error e => e.utf8ByteSize < 2 ^ 32 - 1000

def Event.Good (pf : Platform) : Event → Prop
  | .call r => r.Good pf
  | .answer _ out => out.Fits pf
  | _ => True

end Verif.Host.Requests
