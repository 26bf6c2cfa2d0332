import Verif.Ssr.Cli
/-!
# C68: which part of the server answers a request

Model of vertigo-cli/src/serve/serve_run.rs, with the parts of axum 0.6 that decide where a request goes (`nest_service`, the router,
`StripPrefix`, the extractor `Json`). What is behind them are parameters: `ServeDir` (the files, C63), the application (C31, C32), `reqwest` (the
other server), and reading and writing JSON with serde_json.

Paths are lists of characters, as they come in the request (not decoded); requests have the usual form, a path with an optional query.
-/
namespace Verif.Serve
open Verif.Ssr (Below splitSlash addWatchScript)

inductive Method where
  | get
  | head
  | post
  /-- PUT, DELETE, PATCH, OPTIONS, .. -/
  | other (name : String)
  deriving DecidableEq

/-- Names of headers are in lower case (as in `HeaderMap`). -/
abbrev Headers := List (String × String)

structure Request where
  method : Method
  path : List Char
  query : Option (List Char)
  headers : Headers
  body : List UInt8
  deriving DecidableEq

/-- A request that is sent to another server. -/
structure Sent where
  post : Bool
  url : List Char
  headers : Headers
  body : List UInt8
  deriving DecidableEq

inductive Body where
  | bytes (b : List UInt8)
  | text (s : List Char)
  deriving DecidableEq

structure Reply where
  status : Nat
  headers : Headers
  body : Body
  deriving DecidableEq

/-- What is outside. `J` are the JSON values. -/
structure Outside (J : Type) where
  /-- `ServeDir`: method, path below the directory, headers -/
  files : Method → List Char → Headers → Reply
  /-- `ServerState::request` -/
  render : List Char → Ssr.Response
  /-- `reqwest`; the error is its text -/
  fetch : Sent → Except (List Char) Reply
  /-- `serde_json::from_slice` and `to_vec` -/
  read : List UInt8 → Option J
  write : J → List UInt8
  /-- is this content type one for JSON? -/
  jsonType : String → Bool
  /-- the content of watch.js -/
  watch : List Char

/-- serve_opts.rs:16-28 and mount_path.rs:35-37. -/
structure Config where
  publicPath : List Char
  proxies : List (List Char × List Char)
  portWatch : Option Nat

/-! ## axum: the routes -/

inductive Handler where
  | files
  | proxy (target : List Char)
  deriving DecidableEq

/-- A pattern of the router: one path, or all paths that go on after the prefix (`prefix*tail`). (Patterns with parameters, `:name`, are not
modelled: they are taken as they are.) -/
inductive Pattern where
  | exact (path : List Char)
  | after (start : List Char)
  deriving DecidableEq

structure Route where
  pattern : Pattern
  start : List Char
  handler : Handler

/-- `route_service`: a pattern that is already there is a panic (`none`). -/
def insertRoute (rs : List Route) (r : Route) : Option (List Route) :=
  if rs.any fun x => x.pattern = r.pattern then none else some (rs ++ [r])

/-- `nest_service` (axum 0.6): three patterns for one prefix. A path with `*`, or one that does not start with `/`, is a panic. -/
def nest (rs : List Route) (path : List Char) (h : Handler) : Option (List Route) :=
  let start := if path = [] then ['/'] else path
  if '*' ∈ start ∨ start.head? ≠ some '/' then none
  else
    if start.getLast? = some '/' then
      (insertRoute rs ⟨.after start, start, h⟩).bind fun rs => insertRoute rs ⟨.exact start, start, h⟩
    else
      (insertRoute rs ⟨.after (start ++ ['/']), start, h⟩).bind fun rs =>
        (insertRoute rs ⟨.exact start, start, h⟩).bind fun rs => insertRoute rs ⟨.exact (start ++ ['/']), start, h⟩

/-- serve_run.rs:50-55, 150-186 (`install_proxy`). `none` is a panic when the server starts. -/
def Config.routes (c : Config) : Option (List Route) :=
  c.proxies.foldl (fun rs p => rs.bind fun rs => nest rs p.1 (.proxy p.2)) (nest [] c.publicPath .files)

/-- The router (matchit 0.7) prefers fixed text: a route for exactly this path, or that with the longest prefix. The rest is not empty. -/
def Pattern.matched : Pattern → List Char → Bool
  | .exact p, path => p = path
  | .after p, path => p.isPrefixOf path && p.length < path.length

def Pattern.weight : Pattern → List Char → Nat
  | .exact _, path => path.length + 1
  | .after p, _ => p.length

/-- Of the routes that match, the one with the greatest weight. -/
def best (path : List Char) : List Route → Option Route
  | [] => none
  | r :: rs =>
      if r.pattern.matched path then
        match best path rs with
        | none => some r
        | some r' => if r'.pattern.weight path ≤ r.pattern.weight path then some r else some r'
      else best path rs

/-- `strip_prefix` (axum 0.6, routing/strip_prefix.rs): how many characters belong to the prefix; both are given as segments. -/
def prefixLength : List (List Char) → List (List Char) → Nat → Option Nat
  | [], [], n => some n
  | [], _ :: _, _ => none
  | _ :: _, [], n => some (n + 1)
  | p :: ps, q :: qs, n =>
      if q.head? = some ':' ∨ p = q then prefixLength ps qs (n + 1 + p.length)
      else if q = [] then some (n + 1)
      else none

/-- The path that the nested service gets. -/
def strip (start path : List Char) : List Char :=
  match prefixLength (splitSlash (path.drop 1)) (splitSlash (start.drop 1)) 0 with
  | none => path
  | some n =>
      let rest := path.drop n
      if rest.head? = some '/' then rest else '/' :: rest

/-! ## serve_run.rs -/

/-- A path with its query (`Uri` as text; also serve_run.rs:196-205). -/
def withQuery (path : List Char) : Option (List Char) → List Char
  | none => path
  | some q => path ++ '?' :: q

def setHeader (name value : String) (hs : Headers) : Headers := (name, value) :: hs.filter fun h => h.1 ≠ name

/-- `String::into_response`, with another status. -/
def plainText (status : Nat) (s : List Char) : Reply := ⟨status, [("content-type", "text/plain; charset=utf-8")], .text s⟩

/-- serve_run.rs:73-147: the rest of `get_response` and `post_response` is the same. Errors while the body is read are among those of `fetch`. -/
def relay (fetch : Sent → Except (List Char) Reply) (s : Sent) : Reply :=
  match fetch s with
  | .ok r => r
  | .error e => plainText 500 ("Error fetching from url=".toList ++ s.url ++ " error=".toList ++ e)

/-- The answers of axum when no handler takes the request. -/
def methodNotAllowed : Reply := ⟨405, [("allow", "GET,HEAD,POST")], .bytes []⟩

/-- The extractor `Json<Value>` (axum 0.6): the content type, the size (2 MB), the text. -/
def extractJson (o : Outside J) (r : Request) : Except Reply J :=
  if (r.headers.find? (·.1 = "content-type")).any (fun h => o.jsonType h.2) then
    if r.body.length ≤ 2 * 1024 * 1024 then
      match o.read r.body with
      | some j => .ok j
      | none => .error (plainText 400 "Failed to parse the request body as JSON".toList)
    else .error (plainText 413 "length limit exceeded".toList)
  else .error (plainText 415 "Expected request with `Content-Type: application/json`".toList)

/-- serve_run.rs:157-181: the handlers of a proxy. `path` has been stripped. The second component is what was sent. -/
def proxyAnswer (o : Outside J) (target path : List Char) (r : Request) : Reply × Option Sent :=
  match r.method with
  | .get =>
      let s : Sent := ⟨false, target ++ withQuery path r.query, [], []⟩
      (relay o.fetch s, some s)
  | .head =>
      let s : Sent := ⟨false, target ++ withQuery path r.query, [], []⟩
      ({ relay o.fetch s with body := .bytes [] }, some s)
  | .post =>
      match extractJson o r with
      | .error e => (e, none)
      | .ok j =>
          let s : Sent := ⟨true, target ++ withQuery path r.query, r.headers, o.write j⟩
          (relay o.fetch s, some s)
  | .other _ => (methodNotAllowed, none)

/-- response_state.rs:11-17, 82-96. -/
def pageReply (p : Ssr.Response) : Reply :=
  ⟨p.status, [("cache-control", "private, no-cache, no-store, must-revalidate, max-age=0"),
    ("content-type", match p.contentType with
      | .html => "text/html; charset=utf-8"
      | .plain => "text/plain")], .text p.body⟩

/-- serve_run.rs:189-231 (`handler`). -/
def page (o : Outside J) (c : Config) (r : Request) : Reply :=
  let p := o.render (withQuery r.path r.query)
  pageReply (match c.portWatch with
    | some port => addWatchScript o.watch port p
    | none => p)

/-- serve_run.rs:233-239 (`set_cache_header`). -/
def cached (r : Reply) : Reply := { r with headers := setHeader "cache-control" "public, max-age=86400" r.headers }

/-- serve_run.rs:50-57: a request comes in. The layer with the cache header is only around the files. -/
def answer (o : Outside J) (c : Config) (rs : List Route) (r : Request) : Reply × Option Sent :=
  match best r.path rs with
  | some ⟨_, start, .files⟩ => (cached (o.files r.method (strip start r.path) r.headers), none)
  | some ⟨_, start, .proxy target⟩ => proxyAnswer o target (strip start r.path) r
  | none => (page o c r, none)

/-! ## Specification -/

/-- The prefixes that are given to the server, with what is behind them. -/
def Config.owners (c : Config) : List (List Char × Handler) :=
  (c.publicPath, .files) :: c.proxies.map fun p => (p.1, .proxy p.2)

/-- A prefix like `/api` or `/a/b`: it starts with a slash, does not end with one, and has none of the characters that mean something else. -/
structure Plain (p : List Char) : Prop where
  start : p.head? = some '/'
  last : p.getLast? ≠ some '/'
  star : '*' ∉ p
  colon : ':' ∉ p

structure Config.Good (c : Config) : Prop where
  plain : ∀ o ∈ c.owners, Plain o.1
  distinct : (c.owners.map (·.1)).Nodup

/-- The path belongs to this prefix: it is the prefix or below it, and belongs to no prefix that is more special. -/
structure Belongs (c : Config) (path : List Char) (o : List Char × Handler) : Prop where
  mem : o ∈ c.owners
  below : Below o.1 path
  special : ∀ o' ∈ c.owners, Below o'.1 path → Below o'.1 o.1

/-- The path belongs to no prefix. -/
def Free (c : Config) (path : List Char) : Prop := ∀ o ∈ c.owners, ¬ Below o.1 path

end Verif.Serve
