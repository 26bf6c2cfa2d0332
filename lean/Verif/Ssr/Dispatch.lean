import Verif.Json.Commands
/-!
# C20: host calls on the server

Sources: `crates/vertigo/src/driver_module/api/{api_import,api_dom_access}.rs` (the client),
`crates/vertigo-cli/src/serve/wasm/{js_value_match,decode_commands,wasm_instance}.rs` (the server).

Not modelled here: the bytes between the two (C13-C17), the fetch itself (C31).
-/
namespace Verif.Ssr

open Verif.Codec (JsJson JsValue)
open Verif.Json (Same SameMap Ctx Res Sorted mapInsert readString getHashmap)

/-! ## The client -/

/-- The body of a request (request_builder.rs: `RequestBody`). -/
inductive Body where
  | text (s : String)
  | json (j : JsJson)
  | binary (b : List UInt8)

/-- The calls of the host made by `ApiImport`, with their arguments.  `headers` is the object
that `fetch` builds (api_import.rs:508-518).  `domBulkUpdate` has the commands. -/
inductive Call where
  | console (kind a1 a2 a3 a4 : String)
  | cookieGet (name : String)
  | cookieGetJson (name : String)
  | cookieSet (name value : String) (expires : UInt64)
  | cookieSetJson (name : String) (value : JsJson) (expires : UInt64)
  | intervalSet (duration : UInt32) (callback : UInt64)
  | timeoutSet (duration : UInt32) (callback : UInt64)
  | intervalClear (timer : Int32)
  | dateNow
  | timezoneOffset
  | historyBack
  | hashGet
  | hashPush (hash : String)
  | hashAdd (callback : UInt64)
  | hashRemove (callback : UInt64)
  | historyGet
  | historyPush (path : String)
  | historyReplace (path : String)
  | historyAdd (callback : UInt64)
  | historyRemove (callback : UInt64)
  | fetch (callback : UInt64) (method url : String) (headers : JsJson) (body : Option Body)
  | websocketRegister (host : String) (callback : UInt64)
  | websocketUnregister (callback : UInt64)
  | websocketSend (callback : UInt64) (message : String)
  | domBulkUpdate (commands : JsJson)
  | getRandom (min max : UInt32)
  | isBrowser
  | getEnv (name : String)
  | plainResponse (body : String)

/-- api_dom_access.rs:27-31. -/
def api : JsValue := .list [.str "api"]
/-- api_dom_access.rs:44-51. -/
def root (name : String) : JsValue := .list [.str "root", .str name]
/-- api_dom_access.rs:54-59. -/
def get (name : String) : JsValue := .list [.str "get", .str name]
/-- api_dom_access.rs:73-80. -/
def call (name : String) (params : List JsValue) : JsValue := .list (.str "call" :: .str name :: params)
/-- api_dom_access.rs:85-89, one of the two values. -/
def synthetic (name : String) : JsValue := .list [.str name]

/-- api_import.rs:533-538. -/
def bodyValue : Option Body → JsValue
  | some (.text s) => .str s
  | some (.json j) => .json j
  | some (.binary b) => .vec b
  | none => .undefined

/-- The value sent to the host: api_import.rs:69-708. -/
def encode : Call → JsValue
  | .console kind a1 a2 a3 a4 => .list [root "window", get "console", call kind [.str a1, .str a2, .str a3, .str a4]]
  | .cookieGet name => .list [api, get "cookie", call "get" [.str name]]
  | .cookieGetJson name => .list [api, get "cookie", call "get_json" [.str name]]
  | .cookieSet name value expires => .list [api, get "cookie", call "set" [.str name, .str value, .u64 expires]]
  | .cookieSetJson name value expires => .list [api, get "cookie", call "set_json" [.str name, .json value, .u64 expires]]
  | .intervalSet d cb => .list [api, get "interval", call "interval_set" [.u32 d, .u64 cb]]
  | .timeoutSet d cb => .list [api, get "interval", call "timeout_set" [.u32 d, .u64 cb]]
  | .intervalClear t => .list [api, get "interval", call "interval_clear" [.i32 t]]
  | .dateNow => .list [root "window", get "Date", call "now" []]
  | .timezoneOffset => .list [api, call "getTimezoneOffset" []]
  | .historyBack => .list [root "window", get "history", call "back" []]
  | .hashGet => .list [api, get "hashRouter", call "get" []]
  | .hashPush h => .list [api, get "hashRouter", call "push" [.str h]]
  | .hashAdd cb => .list [api, get "hashRouter", call "add" [.u64 cb]]
  | .hashRemove cb => .list [api, get "hashRouter", call "remove" [.u64 cb]]
  | .historyGet => .list [api, get "historyLocation", call "get" []]
  | .historyPush p => .list [api, get "historyLocation", call "push" [.str p]]
  | .historyReplace p => .list [api, get "historyLocation", call "replace" [.str p]]
  | .historyAdd cb => .list [api, get "historyLocation", call "add" [.u64 cb]]
  | .historyRemove cb => .list [api, get "historyLocation", call "remove" [.u64 cb]]
  | .fetch cb method url headers body =>
      .list [api, get "fetch", call "fetch_send_request" [.u64 cb, .str method, .str url, .json headers, bodyValue body]]
  | .websocketRegister host cb => .list [api, get "websocket", call "websocket_register_callback" [.str host, .u64 cb]]
  | .websocketUnregister cb => .list [api, get "websocket", call "websocket_unregister_callback" [.u64 cb]]
  | .websocketSend cb m => .list [api, get "websocket", call "websocket_send_message" [.u64 cb, .str m]]
  | .domBulkUpdate j => .list [api, get "dom", call "dom_bulk_update" [.json j]]
  | .getRandom a b => .list [api, call "getRandom" [.u32 a, .u32 b]]
  | .isBrowser => .list [api, call "isBrowser" []]
  | .getEnv name => .list [api, call "get_env" [.str name]]
  | .plainResponse body => .list [synthetic "plain_response", .str body]

/-! ## The server: patterns (js_value_match.rs) -/

/-- `Match`: the rest of the list. -/
abbrev Match := List JsValue

/-- js_value_match.rs:52-60. -/
def Match.new : JsValue → Option Match
  | .list l => some l
  | _ => none

/-- js_value_match.rs:66-78. -/
def Match.str (m : Match) (pattern : String) : Option Match :=
  match m with
  | .str value :: rest => if pattern = value then some rest else none
  | _ => none

/-- js_value_match.rs:80-88. -/
def Match.u32 : Match → Option (Match × UInt32)
  | .u32 v :: rest => some (rest, v)
  | _ => none

/-- js_value_match.rs:90-98. -/
def Match.u64 : Match → Option (Match × UInt64)
  | .u64 v :: rest => some (rest, v)
  | _ => none

/-- js_value_match.rs:100-108. -/
def Match.string : Match → Option (Match × String)
  | .str v :: rest => some (rest, v)
  | _ => none

/-- js_value_match.rs:110-118. -/
def Match.json : Match → Option (Match × JsJson)
  | .json v :: rest => some (rest, v)
  | _ => none

/-- js_value_match.rs:120-128. -/
def Match.getAny : Match → Option (Match × JsValue)
  | v :: rest => some (rest, v)
  | [] => none

/-- The loop js_value_match.rs:160-172. -/
def allStr : List String → List JsValue → Bool
  | [], _ => true
  | p :: ps, .str s :: vs => p = s && allStr ps vs
  | _ :: _, _ => false

/-- js_value_match.rs:149-175. -/
def Match.testList (m : Match) (pattern : List String) : Option Match :=
  match m with
  | .list first :: rest =>
      if pattern.length ≠ first.length then none else if allStr pattern first then some rest else none
  | _ => none

/-- js_value_match.rs:177-194. -/
def Match.testListWith {α : Type} (m : Match) (f : Match → Option α) : Option (Match × α) :=
  match m with
  | .list first :: rest => (f first).map fun r => (rest, r)
  | _ => none

/-- js_value_match.rs:196-204. -/
def Match.end' : Match → Option Unit
  | [] => some ()
  | _ :: _ => none

/-! ## The server: commands (decode_commands.rs) -/

/-- message.rs (`FetchRequest`). -/
structure FetchRequest where
  method : String
  url : String
  headers : List (String × String)
  body : Option Body

/-- decode_commands.rs:8-20. -/
def valueToBody : JsValue → Option (Option Body)
  | .json j => some (some (.json j))
  | .str s => some (some (.text s))
  | .vec b => some (some (.binary b))
  | .undefined => some none
  | _ => none

/-- serialize.rs:261-266 with `String`. -/
def headersLoop (ctx : Ctx) : List (String × String) → List (String × JsJson) → Res (List (String × String))
  | result, [] => .ok result
  | result, (key, item) :: l =>
      (readString (("field: '" ++ key ++ "'") :: ctx) item).bind fun v => headersLoop ctx (mapInsert key v result) l

/-- `from_json::<HashMap<String, String>>`. -/
def headersFromJson (j : JsJson) : Option (List (String × String)) :=
  match (getHashmap [] j).bind fun map => headersLoop [] [] map with
  | .ok l => some l
  | _ => none

/-- decode_commands.rs:30-36. -/
def matchIsBrowser (v : JsValue) : Option Unit := do
  let m ← Match.new v
  let m ← m.testList ["api"]
  let _ ← m.testList ["call", "isBrowser"]
  some ()

/-- decode_commands.rs:38-44. -/
def matchCookie (v : JsValue) : Option Unit := do
  let m ← Match.new v
  let m ← m.testList ["api"]
  let _ ← m.testList ["get", "cookie"]
  some ()

/-- decode_commands.rs:46-53. -/
def matchPlainResponse (v : JsValue) : Option String := do
  let m ← Match.new v
  let m ← m.testList ["plain_response"]
  let (m, body) ← m.string
  m.end'
  some body

/-- decode_commands.rs:55-63. -/
def matchHistoryRouter (v : JsValue) : Option Unit := do
  let m ← Match.new v
  let m ← m.testList ["api"]
  let m ← m.testList ["get", "historyLocation"]
  let m ← m.testList ["call", "get"]
  m.end'

/-- decode_commands.rs:65-79. -/
def matchGetEnv (v : JsValue) : Option String := do
  let m ← Match.new v
  let m ← m.testList ["api"]
  let (m, name) ← m.testListWith fun m => do
    let m ← m.str "call"
    let m ← m.str "get_env"
    let (m, name) ← m.string
    m.end'
    some name
  m.end'
  some name

/-- decode_commands.rs:81-96. -/
def matchHistoryRouterCallback (v : JsValue) : Option Unit := do
  let m ← Match.new v
  let m ← m.testList ["api"]
  let m ← m.testList ["get", "historyLocation"]
  let (m, _) ← m.testListWith fun m => do
    let m ← m.str "call"
    let m ← m.str "add"
    let (m, cb) ← m.u64
    m.end'
    some cb
  m.end'

/-- decode_commands.rs:98-113. -/
def matchDomBulkUpdate (v : JsValue) : Option JsJson := do
  let m ← Match.new v
  let m ← m.testList ["api"]
  let m ← m.testList ["get", "dom"]
  let (m, data) ← m.testListWith fun m => do
    let m ← m.str "call"
    let m ← m.str "dom_bulk_update"
    let (m, data) ← m.json
    m.end'
    some data
  m.end'
  some data

/-- decode_commands.rs:115-136. -/
def matchLog (v : JsValue) : Option (String × String) := do
  let m ← Match.new v
  let m ← m.testList ["root", "window"]
  let m ← m.testList ["get", "console"]
  let (m, r) ← m.testListWith fun m => do
    let m ← m.str "call"
    let (m, logType) ← m.string
    let (m, logMessage) ← m.string
    let (m, _) ← m.string
    let (m, _) ← m.string
    let (m, _) ← m.string
    m.end'
    some (logType, logMessage)
  m.end'
  some r

/-- decode_commands.rs:138-148. -/
def matchDateNow (v : JsValue) : Option Unit := do
  let m ← Match.new v
  let m ← m.testList ["root", "window"]
  let m ← m.testList ["get", "Date"]
  let m ← m.testList ["call", "now"]
  m.end'

/-- decode_commands.rs:150-157. -/
def matchWebsocket (v : JsValue) : Option Unit := do
  let m ← Match.new v
  let m ← m.testList ["api"]
  let _ ← m.testList ["get", "websocket"]
  some ()

/-- decode_commands.rs:160-180; `none` inside is `NoResult`. -/
def matchInterval (v : JsValue) : Option (Option (UInt32 × UInt64)) := do
  let m ← Match.new v
  let m ← m.testList ["api"]
  let m ← m.testList ["get", "interval"]
  let (m, r) ← m.testListWith fun m => do
    let m ← m.str "call"
    match m.str "timeout_set" with
    | some m =>
        let (m, time) ← m.u32
        let (_, cb) ← m.u64
        some (some (time, cb))
    | none => some none
  m.end'
  some r

/-- decode_commands.rs:182-220. -/
def matchFetch (v : JsValue) : Option (UInt64 × FetchRequest) := do
  let m ← Match.new v
  let m ← m.testList ["api"]
  let m ← m.testList ["get", "fetch"]
  let (m, r) ← m.testListWith fun m => do
    let m ← m.str "call"
    let m ← m.str "fetch_send_request"
    let (m, cb) ← m.u64
    let (m, method) ← m.string
    let (m, url) ← m.string
    let (m, headers) ← m.json
    let (m, body) ← m.getAny
    m.end'
    let headers ← headersFromJson headers
    let body ← valueToBody body
    some (cb, FetchRequest.mk method url headers body)
  m.end'
  some r

/-- What the server took the value for. -/
inductive Action where
  | cookie
  | plainResponse (body : String)
  | historyGet
  | getEnv (name : String)
  | historyAdd
  | domUpdate (j : JsJson)
  | log (logType message : String)
  | dateNow
  | timeoutSet (time : UInt32) (callback : UInt64)
  | otherInterval
  | websocket
  | fetch (callback : UInt64) (request : FetchRequest)
  | isBrowser
  | unsupported

/-- The cascade wasm_instance.rs:45-139. -/
def dispatch (v : JsValue) : Action :=
  match matchCookie v with
  | some () => .cookie
  | none =>
  match matchPlainResponse v with
  | some body => .plainResponse body
  | none =>
  match matchHistoryRouter v with
  | some () => .historyGet
  | none =>
  match matchGetEnv v with
  | some name => .getEnv name
  | none =>
  match matchHistoryRouterCallback v with
  | some () => .historyAdd
  | none =>
  match matchDomBulkUpdate v with
  | some data => .domUpdate data
  | none =>
  match matchLog v with
  | some (t, m) => .log t m
  | none =>
  match matchDateNow v with
  | some () => .dateNow
  | none =>
  match matchInterval v with
  | some (some (time, cb)) => .timeoutSet time cb
  | some none => .otherInterval
  | none =>
  match matchWebsocket v with
  | some () => .websocket
  | none =>
  match matchFetch v with
  | some (cb, request) => .fetch cb request
  | none =>
  match matchIsBrowser v with
  | some () => .isBrowser
  | none => .unsupported

/-- What the server knows: the url of the request, the environment, the clock. -/
structure Request where
  url : String
  env : String → Option String
  now : Int64

/-- Messages to the loop that renders the page (message.rs). -/
inductive Message where
  | plainResponse (body : String)
  | domUpdate (j : JsJson)
  | setTimeoutZero (callback : UInt64)
  | fetchRequest (callback : UInt64) (request : FetchRequest)

/-- wasm_instance.rs:45-139: the messages sent, and the value returned (0 is read by the client
as `Undefined`, arguments.rs:26-29). -/
def perform (r : Request) : Action → List Message × JsValue
  | .cookie => ([], .undefined)
  | .plainResponse body => ([.plainResponse body], .undefined)
  | .historyGet => ([], .str r.url)
  | .getEnv name => ([], match r.env name with | some v => .str v | none => .null)
  | .historyAdd => ([], .undefined)
  | .domUpdate j => ([.domUpdate j], .undefined)
  | .log _ _ => ([], .undefined)
  | .dateNow => ([], .i64 r.now)
  | .timeoutSet time cb => (if time = 0 then [.setTimeoutZero cb] else [], .i32 0)
  | .otherInterval => ([], .undefined)
  | .websocket => ([], .undefined)
  | .fetch cb request => ([.fetchRequest cb request], .undefined)
  | .isBrowser => ([], .fls)
  | .unsupported => ([], .undefined)

/-- How the client uses the answer. -/
inductive Answer where
  /-- a value, and whether an error was logged -/
  | value (v : JsValue) (logged : Bool)
  /-- `panic_message.show`: the server answers with an error page -/
  | panic

/-- `exec` (api_dom_access.rs:104-115). -/
def exec : JsValue → Answer
  | .undefined => .value .undefined false
  | _ => .panic

/-- How the client reads a string: api_import.rs:117-122, 328-333, 391-396. -/
def readStr : JsValue → Answer
  | .str s => .value (.str s) false
  | _ => .value (.str "") true

/-- How the client reads a timer id: api_import.rs:186-191, 222-227. -/
def readTimer : JsValue → Answer
  | .i32 t => .value (.i32 t) false
  | _ => .value (.i32 0) true

/-- What the caller of the API sees of the returned value. -/
def clientAnswer : Call → JsValue → Answer
  | .cookieGet _, v => readStr v
  | .hashGet, v => readStr v
  | .historyGet, v => readStr v
  -- api_import.rs:125-142
  | .cookieGetJson _, v => match v with | .null => .value (.json .null) false | .json j => .value (.json j) false | _ => .value (.json .null) true
  | .intervalSet _ _, v => readTimer v
  | .timeoutSet _ _, v => readTimer v
  -- api_import.rs:270-287: `time as i64` for a float; not produced by the server
  | .dateNow, v => match v with | .i64 t => .value (.i64 t) false | .f64 b => .value (.f64 b) false | _ => .panic
  -- api_import.rs:289-306
  | .timezoneOffset, v => match v with | .i32 t => .value (.i32 (t * -60)) false | _ => .panic
  -- api_import.rs:648-662
  | .getRandom _ _, v => match v with | .i32 t => .value (.u32 t.toUInt32) false | _ => .panic
  -- api_import.rs:664-681
  | .isBrowser, v => match v with | .tru => .value .tru false | .fls => .value .fls false | _ => .value .fls true
  -- api_import.rs:683-700
  | .getEnv _, v => match v with | .null => .value .null false | .str s => .value (.str s) false | _ => .value .null true
  | _, v => exec v

/-! ## Specification -/

/-- What the server should take a call for. -/
def expected (headers : List (String × String)) : Call → Action
  | .console kind m _ _ _ => .log kind m
  | .cookieGet _ | .cookieGetJson _ | .cookieSet _ _ _ | .cookieSetJson _ _ _ => .cookie
  | .timeoutSet time cb => .timeoutSet time cb
  | .intervalSet _ _ | .intervalClear _ => .otherInterval
  | .dateNow => .dateNow
  | .historyGet => .historyGet
  | .historyAdd _ => .historyAdd
  | .fetch cb method url _ body => .fetch cb ⟨method, url, headers, body⟩
  | .websocketRegister _ _ | .websocketUnregister _ | .websocketSend _ _ => .websocket
  | .domBulkUpdate j => .domUpdate j
  | .isBrowser => .isBrowser
  | .getEnv name => .getEnv name
  | .plainResponse body => .plainResponse body
  | .timezoneOffset | .historyBack | .hashGet | .hashPush _ | .hashAdd _ | .hashRemove _ | .historyPush _
  | .historyReplace _ | .historyRemove _ | .getRandom _ _ => .unsupported

/-- The headers given by the user (a map, listed by key) are the ones in the call. -/
def HasHeaders (headers : List (String × String)) : Call → Prop
  | .fetch _ _ _ j _ => Sorted headers ∧ Same j (.obj (headers.map fun e => (e.1, .str e.2)))
  | _ => True

/-! ## Proofs -/

theorem headersLoop_eq {ctx : Ctx} : ∀ {js : List (String × JsJson)} {l acc : List (String × String)},
    js = l.map (fun e => (e.1, .str e.2)) → headersLoop ctx acc js = .ok (l.foldl (fun r e => mapInsert e.1 e.2 r) acc) := by
  intro js l
  induction l generalizing js with
  | nil => rintro _ rfl; rfl
  | cons e l ih =>
    rintro acc rfl
    simp only [List.map_cons, headersLoop, Verif.Json.readString_str, Res.bind, List.foldl_cons]
    exact ih rfl

theorem same_strings : ∀ {l : List (String × String)} {m : List (String × JsJson)}, SameMap m (l.map fun e => (e.1, .str e.2)) →
    m = l.map fun e => (e.1, .str e.2)
  | [], _, h => by cases h; rfl
  | e :: l, _, h => by
      cases h with
      | cons h1 h2 => cases h1; rw [same_strings h2]; rfl

theorem perm_strings : ∀ {l : List (String × String)} {m k : List (String × JsJson)}, m.Perm k →
    k = l.map (fun e => (e.1, .str e.2)) → ∃ l' : List (String × String), l'.Perm l ∧ m = l'.map fun e => (e.1, .str e.2) := by
  intro l m k h
  induction h generalizing l with
  | nil => intro h; cases l with
    | nil => exact ⟨[], .refl _, rfl⟩
    | cons => cases h
  | cons x _ ih =>
    intro h
    cases l with
    | nil => cases h
    | cons e l =>
      cases h
      obtain ⟨l', h1, rfl⟩ := ih rfl
      exact ⟨e :: l', h1.cons _, rfl⟩
  | swap x y =>
    intro h
    match l, h with
    | a :: b :: l, h =>
      cases h
      exact ⟨b :: a :: l, .swap _ _ _, rfl⟩
  | trans _ _ ih1 ih2 =>
    intro h
    obtain ⟨l1, h1, h2⟩ := ih2 h
    obtain ⟨l2, h3, h4⟩ := ih1 h2
    exact ⟨l2, h3.trans h1, h4⟩

theorem headers_eq {headers : List (String × String)} {j : JsJson} (hs : Sorted headers)
    (hj : Same j (.obj (headers.map fun e => (e.1, .str e.2)))) : headersFromJson j = some headers := by
  cases hj with
  | @obj l l' _ hp hm =>
    obtain rfl := same_strings hm
    obtain ⟨l', h1, rfl⟩ := perm_strings hp rfl
    simp only [headersFromJson, getHashmap, Res.bind, headersLoop_eq rfl, Verif.Json.foldInsert_eq hs h1]

theorem body_eq (b : Option Body) : valueToBody (bodyValue b) = some b := by
  cases b with
  | none => rfl
  | some b => cases b <;> rfl

theorem testList_iff {m : Match} {ps : List String} {rest : Match} :
    m.testList ps = some rest ↔ m = .list (ps.map .str) :: rest := by
  have key : ∀ (ps : List String) (vs : List JsValue), ps.length = vs.length → (allStr ps vs = true ↔ vs = ps.map .str) := by
    intro ps
    induction ps with
    | nil => intro vs h; cases vs <;> simp_all [allStr]
    | cons p ps ih =>
      intro vs h
      cases vs with
      | nil => simp at h
      | cons v vs =>
        cases v <;> simp [allStr]
        simp only [List.length_cons, Nat.add_right_cancel_iff] at h
        rw [ih vs h]
        exact ⟨fun ⟨a, b⟩ => ⟨a.symm, b⟩, fun ⟨a, b⟩ => ⟨a.symm, b⟩⟩
  unfold Match.testList
  split
  · rename_i first rest'
    by_cases hl : ps.length = first.length
    · rw [if_neg (by simpa using hl)]
      by_cases ha : allStr ps first = true
      · have := (key ps first hl).mp ha
        rw [if_pos ha]; simp [this]
      · have : first ≠ ps.map .str := fun h => ha ((key ps first hl).mpr h)
        simp [ha, this]
    · rw [if_pos hl]
      have : first ≠ ps.map .str := fun h => hl (by simp [h])
      simp [this]
  · rename_i h
    simp only [reduceCtorEq, false_iff]
    rintro rfl
    exact h _ _ rfl

theorem str_iff {m : Match} {p : String} {rest : Match} : m.str p = some rest ↔ m = .str p :: rest := by
  unfold Match.str
  split
  · rename_i v r
    by_cases h : p = v
    · simp [h]
    · simp [h, Ne.symm h]
  · rename_i h
    simp only [reduceCtorEq, false_iff]
    rintro rfl
    exact h _ _ rfl

theorem new_iff {v : JsValue} {m : Match} : Match.new v = some m ↔ v = .list m := by
  cases v <;> simp [Match.new]

theorem u32_iff {m : Match} {r : Match × UInt32} : m.u32 = some r ↔ m = .u32 r.2 :: r.1 := by
  obtain ⟨a, b⟩ := r
  unfold Match.u32
  split
  · simp [and_comm]
  · rename_i h
    simp only [reduceCtorEq, false_iff]
    rintro rfl
    exact h _ _ rfl

theorem u64_iff {m : Match} {r : Match × UInt64} : m.u64 = some r ↔ m = .u64 r.2 :: r.1 := by
  obtain ⟨a, b⟩ := r
  unfold Match.u64
  split
  · simp [and_comm]
  · rename_i h
    simp only [reduceCtorEq, false_iff]
    rintro rfl
    exact h _ _ rfl

theorem string_iff {m : Match} {r : Match × String} : m.string = some r ↔ m = .str r.2 :: r.1 := by
  obtain ⟨a, b⟩ := r
  unfold Match.string
  split
  · simp [and_comm]
  · rename_i h
    simp only [reduceCtorEq, false_iff]
    rintro rfl
    exact h _ _ rfl

theorem json_iff {m : Match} {r : Match × JsJson} : m.json = some r ↔ m = .json r.2 :: r.1 := by
  obtain ⟨a, b⟩ := r
  unfold Match.json
  split
  · simp [and_comm]
  · rename_i h
    simp only [reduceCtorEq, false_iff]
    rintro rfl
    exact h _ _ rfl

theorem getAny_iff {m : Match} {r : Match × JsValue} : m.getAny = some r ↔ m = r.2 :: r.1 := by
  obtain ⟨a, b⟩ := r
  cases m <;> simp [Match.getAny, and_comm]

theorem end_iff {m : Match} {u : Unit} : m.end' = some u ↔ m = [] := by
  cases m <;> simp [Match.end']

theorem testListWith_iff {α : Type} {m : Match} {f : Match → Option α} {r : Match × α} :
    m.testListWith f = some r ↔ ∃ first, m = .list first :: r.1 ∧ f first = some r.2 := by
  obtain ⟨a, b⟩ := r
  unfold Match.testListWith
  split
  · rename_i first rest
    simp only [Option.map_eq_some_iff, Prod.mk.injEq, List.cons.injEq, JsValue.list.injEq]
    constructor
    · rintro ⟨x, h, rfl, rfl⟩; exact ⟨first, ⟨rfl, rfl⟩, h⟩
    · rintro ⟨_, ⟨rfl, rfl⟩, h⟩; exact ⟨b, h, rfl, rfl⟩
  · rename_i h
    simp only [reduceCtorEq, false_iff]
    rintro ⟨first, rfl, _⟩
    exact h _ _ rfl

/-- **C20.** The server takes every call of the client library for that very call, with the same
arguments, or for an unsupported one. -/
theorem C20_recognised {c : Call} {headers : List (String × String)} (h : HasHeaders headers c) :
    dispatch (encode c) = expected headers c := by
  cases c
  case fetch cb method url j body =>
    simp only [HasHeaders] at h
    have e : matchFetch (encode (.fetch cb method url j body)) = some (cb, ⟨method, url, headers, body⟩) := by
      show ((headersFromJson j).bind fun h => (valueToBody (bodyValue body)).bind fun b =>
        some ((cb, FetchRequest.mk method url h b) : UInt64 × FetchRequest)).map _ >>= _ = _
      rw [headers_eq h.1 h.2, body_eq]
      rfl
    show (match matchFetch (encode (.fetch cb method url j body)) with | some (cb, request) => Action.fetch cb request | none => _) = _
    rw [e]; rfl
  all_goals rfl

/-- The pattern behind an action. -/
def Took (v : JsValue) : Action → Prop
  | .cookie => matchCookie v = some ()
  | .plainResponse b => matchPlainResponse v = some b
  | .historyGet => matchHistoryRouter v = some ()
  | .getEnv name => matchGetEnv v = some name
  | .historyAdd => matchHistoryRouterCallback v = some ()
  | .domUpdate j => matchDomBulkUpdate v = some j
  | .log t m => matchLog v = some (t, m)
  | .dateNow => matchDateNow v = some ()
  | .timeoutSet t cb => matchInterval v = some (some (t, cb))
  | .otherInterval => matchInterval v = some none
  | .websocket => matchWebsocket v = some ()
  | .fetch cb r => matchFetch v = some (cb, r)
  | .isBrowser => matchIsBrowser v = some ()
  | .unsupported => True

theorem took (v : JsValue) : Took v (dispatch v) := by
  unfold dispatch
  repeat' split
  all_goals first | assumption | trivial

theorem valueToBody_iff {v : JsValue} {b : Option Body} : valueToBody v = some b ↔ v = bodyValue b := by
  constructor
  · intro h
    cases v <;> simp only [valueToBody, Option.some.injEq, reduceCtorEq] at h <;> subst h <;> rfl
  · rintro rfl; exact body_eq b

/-- **C20.** Nothing else is taken for one of these calls: this holds for any value, hence also
for the calls that users build with `dom_access()`. -/
theorem C20_nothing_else {v : JsValue} :
    (∀ b, dispatch v = .plainResponse b → v = encode (.plainResponse b)) ∧
    (dispatch v = .historyGet → v = encode .historyGet) ∧
    (∀ name, dispatch v = .getEnv name → v = encode (.getEnv name)) ∧
    (dispatch v = .historyAdd → ∃ cb, v = encode (.historyAdd cb)) ∧
    (∀ j, dispatch v = .domUpdate j → v = encode (.domBulkUpdate j)) ∧
    (∀ t m, dispatch v = .log t m → ∃ a b c, v = encode (.console t m a b c)) ∧
    (dispatch v = .dateNow → v = encode .dateNow) ∧
    (∀ t cb, dispatch v = .timeoutSet t cb →
      ∃ more, v = .list [api, get "interval", call "timeout_set" (.u32 t :: .u64 cb :: more)]) ∧
    (∀ cb r, dispatch v = .fetch cb r →
      ∃ j, headersFromJson j = some r.headers ∧ v = encode (.fetch cb r.method r.url j r.body)) ∧
    (dispatch v = .cookie → ∃ more, v = .list (api :: get "cookie" :: more)) ∧
    (dispatch v = .websocket → ∃ more, v = .list (api :: get "websocket" :: more)) ∧
    (dispatch v = .otherInterval → ∃ args, v = .list [api, get "interval", .list (.str "call" :: args)]) ∧
    (dispatch v = .isBrowser → ∃ more, v = .list (api :: call "isBrowser" [] :: more)) := by
  have ht := took v
  refine ⟨?_, ?_, ?_, ?_, ?_, ?_, ?_, ?_, ?_, ?_, ?_, ?_, ?_⟩
  all_goals intros
  all_goals rename_i h; rw [h] at ht
  all_goals simp only [Took, matchCookie, matchPlainResponse, matchHistoryRouter, matchGetEnv,
      matchHistoryRouterCallback, matchDomBulkUpdate, matchLog, matchDateNow, matchInterval, matchWebsocket, matchFetch,
      matchIsBrowser, Option.bind_eq_bind, Option.bind_eq_some_iff, new_iff, testList_iff, testListWith_iff, str_iff,
      u64_iff, string_iff, json_iff, getAny_iff, end_iff, valueToBody_iff, Option.some.injEq] at ht
  · obtain ⟨_, rfl, _, rfl, ⟨_, _⟩, rfl, _, rfl, rfl⟩ := ht; rfl
  · obtain ⟨_, rfl, _, rfl, _, rfl, _, rfl, rfl⟩ := ht; rfl
  · obtain ⟨_, rfl, _, rfl, ⟨_, _⟩, ⟨_, rfl, _, rfl, _, rfl, ⟨_, _⟩, rfl, _, rfl, rfl⟩, _, rfl, rfl⟩ := ht; rfl
  · obtain ⟨_, rfl, _, rfl, _, rfl, ⟨_, _⟩, ⟨_, rfl, _, rfl, _, rfl, ⟨_, _⟩, rfl, _, rfl, rfl⟩, rfl⟩ := ht; exact ⟨_, rfl⟩
  · obtain ⟨_, rfl, _, rfl, _, rfl, ⟨_, _⟩, ⟨_, rfl, _, rfl, _, rfl, ⟨_, _⟩, rfl, _, rfl, rfl⟩, _, rfl, rfl⟩ := ht; rfl
  · obtain ⟨_, rfl, _, rfl, _, rfl, ⟨_, _⟩, ⟨_, rfl, _, rfl, ⟨_, _⟩, rfl, ⟨_, _⟩, rfl, ⟨_, _⟩, rfl, ⟨_, _⟩, rfl, ⟨_, _⟩, rfl,
      _, rfl, rfl⟩, _, rfl, h2⟩ := ht
    cases h2
    exact ⟨_, _, _, rfl⟩
  · obtain ⟨_, rfl, _, rfl, _, rfl, _, rfl, rfl⟩ := ht; rfl
  · obtain ⟨_, rfl, _, rfl, _, rfl, ⟨_, _⟩, ⟨first, rfl, _, rfl, h2⟩, _, rfl, rfl⟩ := ht
    split at h2
    · rename_i m hm
      simp only [Option.bind_eq_some_iff, u32_iff, u64_iff, str_iff, Option.some.injEq] at h2 hm
      obtain ⟨⟨_, _⟩, rfl, ⟨_, _⟩, h3, h4⟩ := h2
      cases h4
      cases h3
      cases hm
      exact ⟨_, rfl⟩
    · cases h2
  · obtain ⟨_, rfl, _, rfl, _, rfl, ⟨_, _⟩, ⟨_, rfl, _, rfl, _, rfl, ⟨_, _⟩, rfl, ⟨_, _⟩, rfl, ⟨_, _⟩, rfl, ⟨_, _⟩, rfl,
      ⟨_, _⟩, rfl, _, rfl, hd, hh, b, rfl, rfl⟩, _, rfl, h2⟩ := ht
    cases h2
    exact ⟨_, hh, rfl⟩
  · obtain ⟨_, rfl, _, rfl, _, rfl, _⟩ := ht; exact ⟨_, rfl⟩
  · obtain ⟨_, rfl, _, rfl, _, rfl, _⟩ := ht; exact ⟨_, rfl⟩
  · obtain ⟨_, rfl, _, rfl, _, rfl, ⟨_, _⟩, ⟨first, rfl, _, rfl, h2⟩, _, rfl, rfl⟩ := ht; exact ⟨_, rfl⟩
  · obtain ⟨_, rfl, _, rfl, _, rfl, _⟩ := ht; exact ⟨_, rfl⟩

/-- The answer the user of the API should get from the server. -/
def rightAnswer (r : Request) : Call → Answer
  | .isBrowser => .value .fls false
  | .getEnv name => .value (match r.env name with | some v => .str v | none => .null) false
  | .dateNow => .value (.i64 r.now) false
  | .historyGet => .value (.str r.url) false
  | .timeoutSet _ _ => .value (.i32 0) false
  -- these log an error, and go on with a default
  | .cookieGet _ | .hashGet => .value (.str "") true
  | .cookieGetJson _ => .value (.json .null) true
  | .intervalSet _ _ => .value (.i32 0) true
  -- these end the rendering
  | .getRandom _ _ | .timezoneOffset => .panic
  | _ => .value .undefined false

/-- The messages that the renderer should get. -/
def rightMessages (headers : List (String × String)) : Call → List Message
  | .plainResponse b => [.plainResponse b]
  | .domBulkUpdate j => [.domUpdate j]
  | .timeoutSet t cb => if t = 0 then [.setTimeoutZero cb] else []
  | .fetch cb method url _ body => [.fetchRequest cb ⟨method, url, headers, body⟩]
  | _ => []

/-- **C20.** What the caller sees, and what the renderer is told, for each call.  In particular
no call but `get_random` and `timezone_offset` ends the rendering. -/
theorem C20_answers {r : Request} {c : Call} {headers : List (String × String)} (h : HasHeaders headers c) :
    (perform r (dispatch (encode c))).1 = rightMessages headers c ∧
    clientAnswer c (perform r (dispatch (encode c))).2 = rightAnswer r c := by
  rw [C20_recognised h]
  cases c
  case getEnv name =>
    refine ⟨rfl, ?_⟩
    simp only [expected, perform, rightAnswer]
    cases r.env name <;> rfl
  all_goals exact ⟨rfl, rfl⟩

/-- **C20**, refuted for two calls: a component that asks for a random number or for the time
zone cannot be rendered on the server. -/
theorem C20_random_violated (r : Request) (a b : UInt32) :
    clientAnswer (.getRandom a b) (perform r (dispatch (encode (.getRandom a b)))).2 = .panic ∧
    clientAnswer .timezoneOffset (perform r (dispatch (encode .timezoneOffset))).2 = .panic := ⟨rfl, rfl⟩

/-- Non-vacuity: a request with two headers, which arrive in another order. -/
example : HasHeaders [("Accept", "a"), ("Host", "h")]
    (.fetch 5 "POST" "/x" (.obj [("Host", .str "h"), ("Accept", .str "a")]) (some (.text "body"))) := by
  refine ⟨by simp [Sorted], .obj (.swap _ _ _) (.cons (.str _) (.cons (.str _) .nil))⟩

end Verif.Ssr
