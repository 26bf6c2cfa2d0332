import Verif.Host.Access
/-!
# C52: cookies

Sources: `crates/vertigo/src/driver_module/src_js/api_browser/cookies.ts`,
`crates/vertigo/src/driver_module/api/api_import.rs:109-176`,
`crates/vertigo-cli/src/serve/wasm/wasm_instance.rs:50-53`.

The calls go through the model of access chains (`Verif.Host.Access`). The cookie store of the browser is a model of
RFC 6265 (5.2 to 5.4) with the limits of 6265bis. `encodeURIComponent`, `decodeURIComponent`, `JSON` and dates are
functions of the platform (`Platform`), of which only `Platform.Ok` is assumed; `examplePlatform` has these properties.

Simplifications: one host and the path `/`; no cookie is evicted for lack of space; the clock of `new Date()` is the clock by
which cookies expire. Times are milliseconds since 1970.
-/
namespace Verif.Host.Cookies
open Verif.Codec

/-! ## Model: the browser -/

/-- A cookie; without `expires` it lasts until the browser is closed. -/
structure Cookie where
  name : List Char
  value : List Char
  expires : Option Int
  deriving DecidableEq

/-- The functions of the platform that cookies.ts calls, and those of the cookie store. -/
structure Platform where
  /-- `encodeURIComponent` -/
  encode : List Char → List Char
  /-- `decodeURIComponent`; `none` is a `URIError` -/
  decode : List Char → Option (List Char)
  /-- `JSON.stringify` -/
  stringify : Js → List Char
  /-- `JSON.parse`; `none` is a `SyntaxError` -/
  parse : List Char → Option Js
  /-- `toUTCString` of a valid date -/
  utc : Int → List Char
  /-- the date that the cookie store reads in an `expires` attribute -/
  date : List Char → Option Int
  /-- the longest time for which the browser keeps a cookie (6265bis: 400 days) -/
  keep : Nat

/-- `text.split(c)` -/
def splitOn (c : Char) : List Char → List (List Char)
  | [] => [[]]
  | x :: xs =>
      if x = c then [] :: splitOn c xs
      else
        match splitOn c xs with
        | [] => [[x]]
        | y :: ys => (x :: y) :: ys

/-- Removes characters at both ends. -/
def trim (space : Char → Bool) (text : List Char) : List Char :=
  ((text.dropWhile space).reverse.dropWhile space).reverse

/-- What `text.trim()` removes (ECMA-262: WhiteSpace and LineTerminator). -/
def jsSpace (c : Char) : Bool :=
  [9, 10, 11, 12, 13, 32, 0xA0, 0x1680, 0x2028, 0x2029, 0x202F, 0x205F, 0x3000, 0xFEFF].contains c.toNat ||
    (0x2000 ≤ c.toNat && c.toNat ≤ 0x200A)

/-- White space in RFC 6265. -/
def wsp (c : Char) : Bool := c == ' ' || c == '\t'

/-- A control character other than tab: the cookie is ignored (6265bis, 5.6). -/
def control (c : Char) : Bool := (c.toNat < 32 && c != '\t') || c.toNat == 127

/-- The part before the first `c`. -/
def before (c : Char) (text : List Char) : List Char := text.takeWhile (· != c)
/-- The part after the first `c`. -/
def after (c : Char) (text : List Char) : List Char := (text.dropWhile (· != c)).drop 1

/-- The `expires` attributes that are dates; the last one counts (RFC 6265, 5.2.1 and 5.3). -/
def expiresOf (pf : Platform) (attributes : List (List Char)) : Option Int :=
  (attributes.filterMap fun a =>
    if (trim wsp (before '=' a)).map Char.toLower = "expires".toList then pf.date (trim wsp (after '=' a)) else none).getLast?

/-- A cookie takes the place of the one with the same name, which keeps its creation time, or comes last. -/
def store (c : Cookie) : List Cookie → List Cookie
  | [] => [c]
  | d :: ds => if d.name = c.name then c :: ds else d :: store c ds

/-- `document.cookie = text` -/
def assign (pf : Platform) (now : Int) (jar : List Cookie) (text : List Char) : List Cookie :=
  if text.any control then jar
  else
    let pair := before ';' text
    let name := if pair.contains '=' then trim wsp (before '=' pair) else []
    let value := if pair.contains '=' then trim wsp (after '=' pair) else trim wsp pair
    if (name = [] ∧ value = []) ∨ 4096 < (strBytes (String.ofList (name ++ value))).length then jar
    else if "__secure-".toList.isPrefixOf (name.map Char.toLower) || "__host-".toList.isPrefixOf (name.map Char.toLower) then jar
    else
      match expiresOf pf (splitOn ';' (after ';' text)) with
      | some t =>
          if min t (now + pf.keep) ≤ now then jar.filter (·.name ≠ name)
          else store ⟨name, value, some (min t (now + pf.keep))⟩ jar
      | none => store ⟨name, value, none⟩ jar

/-- Whether a cookie has not expired. -/
def Cookie.live (now : Int) (c : Cookie) : Bool :=
  match c.expires with
  | some t => now < t
  | none => true

/-- A cookie in `document.cookie`. -/
def Cookie.text (c : Cookie) : List Char := if c.name = [] then c.value else c.name ++ '=' :: c.value

/-- Joined with `"; "`. -/
def join : List (List Char) → List Char
  | [] => []
  | [t] => t
  | t :: ts => t ++ ';' :: ' ' :: join ts

/-- `document.cookie` -/
def documentCookie (now : Int) (jar : List Cookie) : List Char := join ((jar.filter (Cookie.live now)).map Cookie.text)

/-! ## Model: cookies.ts -/

/-- The loop cookies.ts:5-28; `none` is an exception. -/
def getLoop (pf : Platform) (cname : List Char) : List (List Char) → Option (List Char)
  | [] => some []
  | cookie :: rest =>
      if cookie = [] then getLoop pf cname rest
      else
        match splitOn '=' (trim jsSpace cookie) with
        | [name, value] => if name = cname then pf.decode value else getLoop pf cname rest
        | _ => getLoop pf cname rest

/-- The state of the browser. -/
structure Session where
  jar : List Cookie
  now : Int

/-- cookies.ts:4-29 -/
def tsGet (pf : Platform) (s : Session) (cname : List Char) : Option (List Char) :=
  getLoop pf cname (splitOn ';' (documentCookie s.now s.jar))

/-- cookies.ts:31-43 -/
def tsGetJson (pf : Platform) (s : Session) (cname : List Char) : Option Js :=
  match tsGet pf s cname with
  | none => none
  | some text => if text.length ≠ 0 then some ((pf.parse text).getD .null) else some .null

/-- `new Date(t).toUTCString()` (cookies.ts:52-54). Beyond 8.64e15 a date is invalid. Up to there the sums of
cookies.ts:53 are exact in floating point, and beyond they stay beyond. -/
def dateText (pf : Platform) (t : Int) : List Char :=
  if t ≤ 8640000000000000 then pf.utc t else "Invalid Date".toList

/-- cookies.ts:45-57 -/
def tsSet (pf : Platform) (s : Session) (cname cvalue : List Char) (expiresIn : Int) : Session :=
  let text := cname ++ '=' :: (pf.encode cvalue ++ ';' :: ("expires=".toList ++ (dateText pf (s.now + expiresIn * 1000) ++
    ";path=/;samesite=strict\"".toList)))
  { s with jar := assign pf s.now s.jar text }

/-- cookies.ts:59-67 -/
def tsSetJson (pf : Platform) (s : Session) (cname : List Char) (cvalue : Js) (expiresIn : Int) : Session :=
  tsSet pf s cname (pf.stringify cvalue) expiresIn

/-- The values of the browser that matter here: `api`, `api.cookie` (api_browser.ts:12, 21), and data. -/
inductive Val where
  | api
  | cookie
  | js (j : Js)

/-- The browser as access chains see it. Other calls than those Rust makes are exceptions. -/
def cookieWorld (pf : Platform) : World Session Val where
  api := .api
  window := .js .other
  document := .js .other
  null := .js .null
  undefined := .js .undefined
  node := fun _ _ => none
  give := fun w j => (.js j, w)
  read := fun _ r => match r with | .js j => j | _ => .other
  get := fun w r p => match r with | .api => if p = "cookie" then (some .cookie, w) else (some (.js .undefined), w) | _ => (none, w)
  set := fun w _ _ _ => (false, w)
  call := fun w r f args =>
    match r, args with
    | .cookie, [.js (.str n)] =>
        if f = "get" then ((tsGet pf w n.toList).map fun v => .js (.str (String.ofList v)), w)
        else if f = "get_json" then ((tsGetJson pf w n.toList).map .js, w)
        else (none, w)
    | .cookie, [.js (.str n), .js v, .js (.bigint e)] =>
        if f = "set" then
          match v with
          | .str v => (some (.js .undefined), tsSet pf w n.toList v.toList e)
          | _ => (none, w)
        else if f = "set_json" then (some (.js .undefined), tsSetJson pf w n.toList v e)
        else (none, w)
    | _, _ => (none, w)

/-! ## Model: api_import.rs -/

/-- `fetch` and `exec` of a chain in the browser. On the server cookie commands are ignored and answered with the pointer 0
(wasm_instance.rs:50-53). -/
def fetchCookie (pf : Platform) (lossy : List UInt8 → String) (browser : Bool) (s : Session) (f : String) (args : List JsValue) :
    Answer × Session :=
  if browser then
    match (build [.api, .get "cookie", .call f args]).toSnapshot with
    | .ok m => domAccess (cookieWorld pf) lossy s m.written 0 m.size
    | _ => (.exception, s)
  else (.value .undefined, s)

/-- api_import.rs:109-123; `none`: an exception ended the call. -/
def cookieGet (pf : Platform) (lossy : List UInt8 → String) (browser : Bool) (s : Session) (cname : String) : Option String × Session :=
  match fetchCookie pf lossy browser s "get" [.str cname] with
  | (.value (.str v), s) => (some v, s)
  | (.value _, s) => (some "", s)
  | (.exception, s) => (none, s)

/-- api_import.rs:125-142 -/
def cookieGetJson (pf : Platform) (lossy : List UInt8 → String) (browser : Bool) (s : Session) (cname : String) : Option JsJson × Session :=
  if browser then
    match fetchCookie pf lossy browser s "get_json" [.str cname] with
    | (.value (.json j), s) => (some j, s)
    | (.value _, s) => (some .null, s)
    | (.exception, s) => (none, s)
  else (some .null, s)

/-- api_import.rs:144-161 -/
def cookieSet (pf : Platform) (lossy : List UInt8 → String) (browser : Bool) (s : Session) (cname cvalue : String) (expiresIn : UInt64) : Session :=
  if browser then (fetchCookie pf lossy browser s "set" [.str cname, .str cvalue, .u64 expiresIn]).2 else s

/-- api_import.rs:163-176 -/
def cookieSetJson (pf : Platform) (lossy : List UInt8 → String) (browser : Bool) (s : Session) (cname : String) (cvalue : JsJson)
    (expiresIn : UInt64) : Session :=
  (fetchCookie pf lossy browser s "set_json" [.str cname, .json cvalue, .u64 expiresIn]).2

/-! ## Specification -/

mutual
/-- All numbers are finite, and none is `-0`: JSON has no text for the others. -/
def Finite : JsJson → Prop
  | .num bits => (bits >>> 52) &&& 0x7ff ≠ 0x7ff ∧ bits ≠ 2 ^ 63
  | .list l => FiniteL l
  | .obj l => FiniteO l
  | _ => True
def FiniteL : List JsJson → Prop
  | [] => True
  | x :: xs => Finite x ∧ FiniteL xs
def FiniteO : List (String × JsJson) → Prop
  | [] => True
  | (_, x) :: xs => Finite x ∧ FiniteO xs
end

/-- What is assumed of the platform. -/
structure Platform.Ok (pf : Platform) : Prop where
  decode_encode : ∀ v, pf.decode (pf.encode v) = some v
  /-- ECMA-262, 19.2.6.4: the characters that are not escaped, and those of escapes -/
  encode_chars : ∀ v, ∀ c ∈ pf.encode v, c.isAlphanum ∨ c ∈ "-_.!~*'()%".toList
  parse_stringify : ∀ j : JsJson, j.WF → Ts.JsSafeJ j → j.wireLen < 2 ^ 30 → Finite j → pf.parse (pf.stringify (ofJson j)) = some (ofJson j)
  parse_empty : pf.parse [] = none
  /-- `Tue, 17 Nov 2026 10:00:00 GMT`; read back with the precision of a second (years up to 9999) -/
  date_utc : ∀ t, 0 ≤ t → t < 253402300800000 → pf.date (pf.utc t) = some (t / 1000 * 1000)
  utc_chars : ∀ t, 0 ≤ t → t ≤ 8640000000000000 → ∀ c ∈ pf.utc t, c.isAlphanum ∨ c ∈ " ,:".toList
  utc_first : ∀ t, 0 ≤ t → t ≤ 8640000000000000 → (pf.utc t).head? ≠ some ' '
  utc_last : ∀ t, 0 ≤ t → t ≤ 8640000000000000 → (pf.utc t).getLast? ≠ some ' '
  date_invalid : pf.date "Invalid Date".toList = none

/-- A name that RFC 6265 allows: a token (RFC 2616, 2.2). -/
def Token (name : List Char) : Prop := name ≠ [] ∧ ∀ c ∈ name, c.isAlphanum ∨ c ∈ "!#$%&'*+-.^_`|~".toList

/-- Names with these prefixes are for cookies with the attribute `secure`. -/
def Reserved (name : List Char) : Prop :=
  "__secure-".toList <+: name.map Char.toLower ∨ "__host-".toList <+: name.map Char.toLower

/-- The cookies of a browser: each name once, and as in RFC 6265. Values that other programs wrote can contain anything but `;`. -/
def JarOk (jar : List Cookie) : Prop := (jar.map (·.name)).Nodup ∧ ∀ c ∈ jar, Token c.name ∧ ';' ∉ c.value

/-- What a program does, and time. -/
inductive Op where
  | set (name value : String) (expiresIn : UInt64)
  | setJson (name : String) (value : JsJson) (expiresIn : UInt64)
  | wait (ms : Nat)

/-- The operations, one after the other, in the browser. -/
def runOps (pf : Platform) (lossy : List UInt8 → String) : List Op → Session → Session
  | [], s => s
  | .set n v e :: ops, s => runOps pf lossy ops (cookieSet pf lossy true s n v e)
  | .setJson n v e :: ops, s => runOps pf lossy ops (cookieSetJson pf lossy true s n v e)
  | .wait ms :: ops, s => runOps pf lossy ops { s with now := s.now + ms }

/-- Name and value can be stored: the name is a token, name and encoded value fit in 4096 bytes, and the cookie expires before the
year 10000. -/
def Storable (pf : Platform) (now : Int) (name : String) (value : List Char) (expiresIn : UInt64) : Prop :=
  Token name.toList ∧ ¬ Reserved name.toList ∧ (strBytes (String.ofList (name.toList ++ pf.encode value))).length ≤ 4096 ∧
    now + expiresIn.toNat * 1000 < 253402300800000

/-- All operations of a history are of this kind, and their values can be sent to the browser: no string begins with a byte order mark
(C17), and no key is `__proto__`. -/
def OpsOk (pf : Platform) : Int → List Op → Prop
  | _, [] => True
  | now, .set n v e :: ops =>
      (Storable pf now n v.toList e ∧ v.utf8ByteSize < 2 ^ 30 ∧ ¬ Ts.bom <+: strBytes v) ∧ OpsOk pf now ops
  | now, .setJson n j e :: ops =>
      (Storable pf now n (pf.stringify (ofJson j)) e ∧ j.WF ∧ Ts.JsSafeJ j ∧ j.wireLen < 2 ^ 30) ∧ OpsOk pf now ops
  | now, .wait ms :: ops => OpsOk pf (now + ms) ops

/-- Until when a cookie can be read: the seconds asked for, in whole seconds of the clock, but no longer than the browser keeps cookies. -/
def lasts (pf : Platform) (now : Int) (expiresIn : UInt64) : Int :=
  min ((now + expiresIn.toNat * 1000) / 1000 * 1000) (now + pf.keep)

/-- The last thing written under a name, and until when it lasts. -/
def lastWrite (pf : Platform) (name : String) : Int → List Op → Option (Op × Int) → Option (Op × Int)
  | _, [], m => m
  | now, .set n v e :: ops, m => lastWrite pf name now ops (if n = name then some (.set n v e, lasts pf now e) else m)
  | now, .setJson n j e :: ops, m => lastWrite pf name now ops (if n = name then some (.setJson n j e, lasts pf now e) else m)
  | now, .wait ms :: ops, m => lastWrite pf name (now + ms) ops m

/-- The time that passes. -/
def elapsed : List Op → Int
  | [] => 0
  | .wait ms :: ops => ms + elapsed ops
  | _ :: ops => elapsed ops

end Verif.Host.Cookies
