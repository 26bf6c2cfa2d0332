import Verif.Host.Queries
import Verif.Ssr.Memory
import Verif.Css.Chars
/-!
# C75: what the program logs is shown

Sources: `crates/vertigo/src/driver_module/init_env.rs`, `crates/vertigo/src/driver_module/api/{api_import.rs:17-35, 73-107, panic_message}.rs`,
`crates/vertigo/src/driver_module/api/api_dom_access.rs:102-122`, `crates/vertigo/src/driver_module/src_js/wasm_module.ts:52-57`,
`crates/vertigo-cli/src/serve/wasm/wasm_instance.rs:30-40, 87-94`.

The messages go through the model of access chains (C51) to the browser, and through the models of the memory (C74) and of the dispatcher (C20)
to the server.

Simplifications: the crate `log` calls the logger for a record if its level is enabled by `set_max_level`; no level is removed at compile time. The
console of the browser follows the Console Standard (2.2.1, Formatter); the style that comes with `%c`, which the standard leaves open, is that of the text
behind it. `%d` and the other conversions are a function about which nothing is assumed.
-/
namespace Verif.Host.Logging
open Verif.Codec

/-! ## Model: the program -/

/-- `log::Level`. -/
inductive Level where
  | error
  | warn
  | info
  | debug
  | trace
  deriving DecidableEq

/-- The order of the levels: `Error` is 1, `Trace` is 5. -/
def Level.rank : Level → Nat
  | .error => 1
  | .warn => 2
  | .info => 3
  | .debug => 4
  | .trace => 5

/-- `Display` of a level. -/
def Level.name : Level → String
  | .error => "ERROR"
  | .warn => "WARN"
  | .info => "INFO"
  | .debug => "DEBUG"
  | .trace => "TRACE"

/-- `log::Record`. -/
structure Record where
  level : Level
  target : String
  file : Option String
  line : Option Nat
  args : String

/-- init_env.rs:23-26 -/
structure Config where
  level : Level
  modulePrefix : Option String

/-- init_env.rs:28-35 -/
def Config.default : Config := ⟨.debug, none⟩

/-- init_env.rs:70-76 -/
def enabled (c : Config) (r : Record) : Bool :=
  match c.modulePrefix with
  | some p => p.toList.isPrefixOf r.target.toList
  | none => true

/-- init_env.rs:83-92 -/
def format (r : Record) : String :=
  "%c" ++ r.level.name ++ "%c " ++ r.file.getD r.target ++ ":" ++ (match r.line with | none => "[Unknown]" | some line => toString line) ++ "%c" ++
    " " ++ r.args

/-- init_env.rs:50 -/
def base : String := "color: white; padding: 0 3px; background:"

/-- init_env.rs:52-56, 97-117: the style, and the method of api_import.rs:89-107. -/
def levelStyle : Level → String
  | .trace => base ++ " gray;"
  | .debug => base ++ " blue;"
  | .info => base ++ " green;"
  | .warn => base ++ " orange;"
  | .error => base ++ " darkred;"

/-- init_env.rs:97-117 with api_import.rs:26-34, 89-107. -/
def kind : Level → String
  | .trace => "debug"
  | .debug => "log"
  | .info => "info"
  | .warn => "warn"
  | .error => "error"

/-- init_env.rs:57-58 -/
def targetStyle : String := "font-weight: bold; color: inherit"
def argsStyle : String := "background: inherit; color: inherit"

/-- api_import.rs:73-87: the chain. -/
def console4 (kind a1 a2 a3 a4 : String) : List Access := [.root "window", .get "console", .call kind [.str a1, .str a2, .str a3, .str a4]]

/-- The chain for a record: init_env.rs:78-119. -/
def chain (r : Record) : List Access := console4 (kind r.level) (format r) (levelStyle r.level) targetStyle argsStyle

/-- What the program does: log something, or show a message because of a panic or of an error in the driver. -/
inductive Act where
  | log (r : Record)
  | panic (message : String)

/-! ## Model: the browser -/

/-- A call of a function of the console. -/
structure Printed where
  function : String
  args : List Js

/-- `window`, `window.console`, and data. -/
inductive Val where
  | window
  | console
  | js (j : Js)

def Val.data : Val → Js
  | .js j => j
  | _ => .other

/-- The console of the browser as access chains see it; the state is what was printed. -/
def world : World (List Printed) Val where
  api := .js .other
  window := .window
  document := .js .other
  null := .js .null
  undefined := .js .undefined
  node := fun _ _ => none
  give := fun w j => (.js j, w)
  read := fun _ r => r.data
  get := fun w r p =>
    match r with
    | .window => if p = "console" then (some .console, w) else (some (.js .undefined), w)
    | _ => (none, w)
  set := fun w _ _ _ => (false, w)
  call := fun w r f args =>
    match r with
    | .console => if f ∈ ["debug", "log", "info", "warn", "error"] then (some (.js .undefined), w ++ [⟨f, args.map Val.data⟩]) else (none, w)
    | _ => (none, w)

/-- wasm_module.ts:52-57 -/
def panicMessage (lossy : List UInt8 → String) (w : List Printed) (mem : List UInt8) (ptr size : Nat) : List Printed :=
  w ++ [⟨"error", [.str "PANIC", .str (Ts.textDecode lossy (readMem mem ptr size))]⟩]

/-- api_dom_access.rs:102-122, `exec`; `dump` is the message if the answer is not `Undefined`; `none` is an exception of the glue code. -/
def exec (lossy : List UInt8 → String) (dump : JsValue → String) (w : List Printed) (chain : List Access) : Option (List Printed) :=
  match (build chain).toSnapshot with
  | .ok m =>
      match domAccess world lossy w m.written 0 m.size with
      | (.value .undefined, w) => some w
      | (.value v, w) => some (panicMessage lossy w (strBytes (dump v)) 0 (strBytes (dump v)).length)
      | (.exception, _) => none
  | _ => none

/-- The macros of `log` (`lvl <= max_level()`), init_env.rs:70-119, and panic_message.rs:11-16. -/
def act (lossy : List UInt8 → String) (dump : JsValue → String) (w : List Printed) : Act → Option (List Printed)
  | .log r =>
      if r.level.rank ≤ Config.default.level.rank ∧ enabled .default r = true then exec lossy dump w (chain r) else some w
  | .panic message => some (panicMessage lossy w (strBytes message) 0 (strBytes message).length)

/-- One thing after the other. -/
def acts (lossy : List UInt8 → String) (dump : JsValue → String) (w : List Printed) : List Act → Option (List Printed)
  | [] => some w
  | a :: as => (act lossy dump w a).bind fun w => acts lossy dump w as

/-! ## Model: what the console shows -/

/-- The format specifiers of the Console Standard. -/
def specifiers : List Char := ['s', 'd', 'i', 'f', 'o', 'O', 'c']

/-- The first format specifier: the text before it, its letter and the text behind it. -/
def firstSpecifier : List Char → Option (List Char × Char × List Char)
  | [] => none
  | [_] => none
  | a :: b :: s =>
      if a = '%' ∧ b ∈ specifiers then some ([], b, s)
      else (firstSpecifier (b :: s)).map fun x => (a :: x.1, x.2)

/-- A part of a line on the console. -/
structure Piece where
  style : String
  text : String
  deriving DecidableEq

/-- Formatter (2.2.1) for strings: the first specifier takes the next argument; `%c` gives the style of the rest, the others are replaced by the converted argument.
Arguments that are left are shown behind the text. -/
def formatter (convert : Char → String → String) (style : String) (target : List Char) : List String → List Piece
  | [] => [⟨style, String.ofList target⟩]
  | a :: args =>
      match firstSpecifier target with
      | none => ⟨style, String.ofList target⟩ :: (a :: args).map fun a => ⟨"", a⟩
      | some (before, 'c', after) => ⟨style, String.ofList before⟩ :: formatter convert a after args
      | some (before, k, after) => formatter convert style (before ++ (convert k a).toList ++ after) args

/-- The strings of a call; `none` if there is something else. -/
def strings : List Js → Option (List String)
  | [] => some []
  | .str s :: l => (strings l).map (s :: ·)
  | _ => none

/-- A line on the console: the function that was called, and the text. -/
structure Line where
  function : String
  pieces : List Piece
  deriving DecidableEq

/-- What is seen of a call. -/
def Printed.line (convert : Char → String → String) (p : Printed) : Option Line :=
  match strings p.args with
  | some (target :: args) => some ⟨p.function, (formatter convert "" target.toList args).filter fun x => x.text ≠ ""⟩
  | _ => none

/-! ## Model: the server -/

/-- The log of the server. -/
inductive Entry where
  | message (level : Level) (text : String)
  | panic (text : Option String)
  deriving DecidableEq

/-- What the server does with a call of the console: wasm_instance.rs:87-94. -/
def serverLog (logType message : String) : Entry := .message (if logType = "error" then .warn else .info) message

/-- wasm_instance.rs:30-40, 45-94: the memory is as in C74, nothing else is in it. -/
def serverAct : Act → Option (List Entry)
  | .log r =>
      if r.level.rank ≤ Config.default.level.rank ∧ enabled .default r = true then
        match (build (chain r)).toSnapshot with
        | .ok m =>
            match Ssr.Memory.getValue m.written 0 m.size with
            | .ok v =>
                match Ssr.dispatch v with
                | .log t text => some [serverLog t text]
                | _ => none
            | _ => none
        | _ => none
      else some []
  | .panic m => (Ssr.Memory.getString (strBytes m) 0 (strBytes m).length).map fun t => [.panic t]

def serverActs : List Act → Option (List Entry)
  | [] => some []
  | a :: as => (serverAct a).bind fun l => (serverActs as).map (l ++ ·)

/-! ## Specification -/

/-- The function of the console for a level. -/
def functionFor : Level → String
  | .error => "error"
  | .warn => "warn"
  | .info => "info"
  | .debug => "log"
  | .trace => "debug"

/-- The color behind the name of a level. -/
def color : Level → String
  | .error => "darkred"
  | .warn => "orange"
  | .info => "green"
  | .debug => "blue"
  | .trace => "gray"

/-- Where a message comes from. -/
def place (r : Record) : String :=
  (match r.file with | some f => f | none => r.target) ++ ":" ++ (match r.line with | some n => toString n | none => "[Unknown]")

/-- The line for an act: the level on a color, where it happened in bold, the message. -/
def expected : Act → Line
  | .log r => ⟨functionFor r.level, [⟨"color: white; padding: 0 3px; background: " ++ color r.level ++ ";", r.level.name⟩,
      ⟨"font-weight: bold; color: inherit", " " ++ place r⟩, ⟨"background: inherit; color: inherit", " " ++ r.args⟩]⟩
  | .panic m => ⟨"error", ⟨"", "PANIC"⟩ :: if m = "" then [] else [⟨"", m⟩]⟩

/-- Everything but traces. -/
def Shown : Act → Bool
  | .log r => r.level ≠ .trace
  | .panic _ => true

/-- No format specifier. -/
def NoSpecifier (s : String) : Prop := ∀ a ∈ specifiers, ¬ ['%', a] <:+: s.toList

/-- The name of the file has no format specifier, and the text is less than 2 GB; the message of a panic does not begin with a byte order mark. -/
def Good : Act → Prop
  | .log r => NoSpecifier (match r.file with | some f => f | none => r.target) ∧ (place r ++ r.args).utf8ByteSize < 2 ^ 31
  | .panic m => ¬ Ts.bom <+: strBytes m

/-- The text is less than 2 GB. -/
def Small : Act → Prop
  | .log r => (place r ++ r.args).utf8ByteSize < 2 ^ 31
  | .panic _ => True

/-- An entry on the server is about an act: it has its text, and information is information. -/
def About : Entry → Act → Prop
  | .message l t, .log r => (r.level = .info → l = .info) ∧ t = "%c" ++ r.level.name ++ "%c " ++ place r ++ "%c " ++ r.args
  | .panic t, .panic m => t = some m
  | _, _ => False

/-! ## Proofs -/

/-! ### Format specifiers -/

def Free (u : List Char) : Prop := ∀ a ∈ specifiers, ¬ ['%', a] <:+: u

theorem free_cons {c : Char} {u : List Char} (hc : c ≠ '%') (h : Free u) : Free (c :: u) := by
  intro a ha hi
  rcases List.infix_cons_iff.1 hi with ⟨r, e⟩ | hi
  · cases e; exact hc rfl
  · exact h a ha hi

theorem free_append {u l : List Char} {c : Char} (h : Free u) (hc : c ∉ specifiers) (hl : Free (c :: l)) : Free (u ++ c :: l) := by
  induction u with
  | nil => exact hl
  | cons x u ih =>
    have h' : Free u := fun a ha hi => h a ha (List.infix_cons_iff.2 (.inr hi))
    intro a ha hi
    rw [List.cons_append] at hi
    rcases List.infix_cons_iff.1 hi with ⟨r, e⟩ | hi
    · cases u with
      | nil => cases e; exact hc ha
      | cons y u => cases e; exact h a ha ⟨[], u, rfl⟩
    · exact ih h' a ha hi

theorem free_of_not_mem {u : List Char} (h : '%' ∉ u) : Free u := by
  intro a _ hi
  exact h (hi.subset (by simp))

theorem first_free {u rest : List Char} (h : Free u) : firstSpecifier (u ++ '%' :: 'c' :: rest) = some (u, 'c', rest) := by
  induction u with
  | nil => simp [firstSpecifier, specifiers]
  | cons a u ih =>
    have h' : Free u := fun b hb hi => h b hb (List.infix_cons_iff.2 (.inr hi))
    have ih := ih h'
    cases u with
    | nil =>
      rw [List.cons_append, List.nil_append, firstSpecifier, if_neg (by rintro ⟨_, hb⟩; revert hb; decide)]
      rw [List.nil_append] at ih
      rw [ih]
      rfl
    | cons b u =>
      rw [List.cons_append, List.cons_append, firstSpecifier, if_neg (by rintro ⟨rfl, hb⟩; exact h b hb ⟨[], u, rfl⟩)]
      rw [List.cons_append] at ih
      rw [ih]
      rfl

theorem line_free (r : Record) : '%' ∉ (match r.line with | some n => toString n | none => "[Unknown]").toList := by
  cases r.line with
  | none => decide
  | some n =>
    intro h
    have h : '%' ∈ (Nat.repr n).toList := h
    have := Css.toDigits_sub n _ h
    revert this
    decide

theorem name_free (l : Level) : Free l.name.toList := free_of_not_mem (by cases l <;> decide)

/-- The text that is sent. -/
theorem format_eq (r : Record) :
    (format r).toList = [] ++ '%' :: 'c' :: (r.level.name.toList ++ '%' :: 'c' :: ((' ' :: (place r).toList) ++ '%' :: 'c' :: (' ' :: r.args.toList))) := by
  unfold format place
  cases r.file <;> cases r.line <;> simp [String.toList_append]

/-- What is shown of it. -/
theorem formatter_format (convert : Char → String → String) {r : Record} (h : NoSpecifier (match r.file with | some f => f | none => r.target))
    (s1 s2 s3 : String) : formatter convert "" (format r).toList [s1, s2, s3] =
      [⟨"", ""⟩, ⟨s1, r.level.name⟩, ⟨s2, " " ++ place r⟩, ⟨s3, " " ++ r.args⟩] := by
  have hp : Free (' ' :: (place r).toList) := by
    refine free_cons (by decide) ?_
    have e : (place r).toList = (match r.file with | some f => f | none => r.target).toList ++ ':' ::
        (match r.line with | some n => toString n | none => "[Unknown]").toList := by
      unfold place
      simp [String.toList_append]
    rw [e]
    exact free_append h (by decide) (free_cons (by decide) (free_of_not_mem (line_free r)))
  rw [format_eq]
  simp only [formatter, first_free (free_of_not_mem (show '%' ∉ [] by simp)), first_free (name_free _), first_free hp]
  have e1 : ∀ t : String, String.ofList (' ' :: t.toList) = " " ++ t := by
    intro t
    apply String.toList_injective
    simp
  rw [e1, e1, String.ofList_toList]

/-! ### The way to the browser -/

theorem kind_mem (l : Level) : kind l ∈ ["debug", "log", "info", "warn", "error"] := by cases l <;> decide

theorem strBytes_append (a b : String) : strBytes (a ++ b) = strBytes a ++ strBytes b := by
  simp [strBytes]

theorem format_safe (r : Record) : ¬ Ts.bom <+: strBytes (format r) := by
  unfold format
  simp only [String.append_assoc]
  rw [strBytes_append]
  rintro ⟨t, e⟩
  have : strBytes "%c" = [37, 99] := by decide
  rw [this] at e
  simp [Ts.bom] at e

theorem format_text (r : Record) : format r = "%c" ++ r.level.name ++ "%c " ++ place r ++ "%c " ++ r.args := by
  unfold format place
  cases r.file <;> cases r.line <;> (apply String.toList_injective; simp [String.toList_append])

theorem format_size (r : Record) : (format r).utf8ByteSize ≤ (place r ++ r.args).utf8ByteSize + 20 := by
  rw [format_text]
  have h1 : r.level.name.utf8ByteSize ≤ 5 := by cases r.level <;> decide
  have h2 : "%c".utf8ByteSize = 2 := by decide
  have h3 : "%c ".utf8ByteSize = 3 := by decide
  simp only [String.utf8ByteSize_append]
  omega

theorem builds_js (w : List Printed) (js : List Js) : Builds world w js (js.map Val.js) w := by
  induction js with
  | nil => exact .nil w
  | cons j js ih => exact .cons (o := world) w w j js _ ih

theorem console_size (l : Level) {m : String} (hl : m.utf8ByteSize < 2 ^ 31 + 100) :
    (build (console4 (kind l) m (levelStyle l) targetStyle argsStyle)).wireLen < 2 ^ 32 - 1 := by
  have hk : (kind l).utf8ByteSize ≤ 5 ∧ (levelStyle l).utf8ByteSize ≤ 60 := by cases l <;> decide
  have e1 : "root".utf8ByteSize = 4 := by decide
  have e2 : "window".utf8ByteSize = 6 := by decide
  have e3 : "get".utf8ByteSize = 3 := by decide
  have e4 : "console".utf8ByteSize = 7 := by decide
  have e5 : "call".utf8ByteSize = 4 := by decide
  have e6 : targetStyle.utf8ByteSize ≤ 50 := by decide
  have e7 : argsStyle.utf8ByteSize ≤ 50 := by decide
  simp only [console4, build, Access.item, List.map, JsValue.wireLen, JsValue.wireLenL, e1, e2, e3, e4, e5]
  omega

theorem exec_console (lossy : List UInt8 → String) (dump : JsValue → String) (w : List Printed) (l : Level) {m : String}
    (hs : ¬ Ts.bom <+: strBytes m) (hl : m.utf8ByteSize < 2 ^ 31 + 100) :
    exec lossy dump w (console4 (kind l) m (levelStyle l) targetStyle argsStyle) =
      some (w ++ [⟨kind l, [.str m, .str (levelStyle l), .str targetStyle, .str argsStyle]⟩]) := by
  have hcall := Does.call (o := world) (kind l) [.str m, .str (levelStyle l), .str targetStyle, .str argsStyle]
    [.str m, .str (levelStyle l), .str targetStyle, .str argsStyle] _ w w .console
    (.cons _ _ _ _ (.str _) (.cons _ _ _ _ (.str _) (.cons _ _ _ _ (.str _) (.cons _ _ _ _ (.str _) .nil)))) (builds_js w _)
  have hc : world.call w .console (kind l) ([Js.str m, .str (levelStyle l), .str targetStyle, .str argsStyle].map Val.js) =
      (some (.js .undefined), w ++ [⟨kind l, [.str m, .str (levelStyle l), .str targetStyle, .str argsStyle]⟩]) := by
    simp only [world, kind_mem, if_true, List.map, Val.data]
  rw [hc] at hcall
  have hchain : Chain world (console4 (kind l) m (levelStyle l) targetStyle argsStyle) w world.null (some (.js .undefined))
      (w ++ [⟨kind l, [.str m, .str (levelStyle l), .str targetStyle, .str argsStyle]⟩]) :=
    .cons _ _ w w _ _ .window _ (.window w _) (.cons _ _ w w _ _ .console _ (.get (o := world) "console" w .window)
      (.cons _ _ _ _ _ _ _ _ hcall (.nil _ _)))
  have hk : ¬ Ts.bom <+: strBytes (kind l) ∧ ¬ Ts.bom <+: strBytes (levelStyle l) ∧ (kind l).utf8ByteSize ≤ 5 ∧ (levelStyle l).utf8ByteSize ≤ 60 := by
    cases l <;> decide
  have hsafe : Ts.JsSafe (build (console4 (kind l) m (levelStyle l) targetStyle argsStyle)) := by
    have e1 : ¬ Ts.bom <+: strBytes "root" := by decide
    have e2 : ¬ Ts.bom <+: strBytes "window" := by decide
    have e3 : ¬ Ts.bom <+: strBytes "get" := by decide
    have e4 : ¬ Ts.bom <+: strBytes "console" := by decide
    have e5 : ¬ Ts.bom <+: strBytes "call" := by decide
    have e6 : ¬ Ts.bom <+: strBytes targetStyle := by decide
    have e7 : ¬ Ts.bom <+: strBytes argsStyle := by decide
    simp only [console4, build, Access.item, List.map, Ts.JsSafe, Ts.JsSafeL]
    exact ⟨⟨e1, e2, trivial⟩, ⟨e3, e4, trivial⟩, ⟨e5, hk.1, hs, hk.2.1, e6, e7, trivial⟩, trivial⟩
  have hlen : (build (console4 (kind l) m (levelStyle l) targetStyle argsStyle)).wireLen < 2 ^ 32 := Nat.lt_trans (console_size l hl) (by decide)
  obtain ⟨hsnap, -⟩ := toSnapshot_eq _ hlen
  have := (C51_chain_partial world lossy (console4 (kind l) m (levelStyle l) targetStyle argsStyle) (by simp [console4, Access.Plain])
    (by simp [console4, build, Access.item, JsValue.WF, JsValue.WFL]) hsafe hlen
    (encV (build (console4 (kind l) m (levelStyle l) targetStyle argsStyle))) 0 _ ⟨_, [], hsnap, by simp, Nat.zero_le _, rfl⟩ w _ _ hchain).2
    _ .undefined rfl .undefined trivial trivial (by decide)
  simp only [exec, hsnap, this]

theorem levelStyle_eq (l : Level) : levelStyle l = "color: white; padding: 0 3px; background: " ++ color l ++ ";" := by cases l <;> decide +kernel

theorem kind_eq (l : Level) : kind l = functionFor l := by cases l <;> rfl

theorem panic_line (lossy : List UInt8 → String) (w : List Printed) {m : String} (h : ¬ Ts.bom <+: strBytes m) :
    panicMessage lossy w (strBytes m) 0 (strBytes m).length = w ++ [⟨"error", [.str "PANIC", .str m]⟩] := by
  have : readMem (strBytes m) 0 (strBytes m).length = strBytes m := by simp [readMem]
  rw [panicMessage, this, Ts.textDecode_eq lossy m h]

/-- What one act adds to the console. -/
theorem act_good (lossy : List UInt8 → String) (dump : JsValue → String) (convert : Char → String → String) (w : List Printed) {a : Act} (h : Good a) :
    ∃ ps, act lossy dump w a = some (w ++ ps) ∧ ps.map (Printed.line convert) = if Shown a then [some (expected a)] else [] := by
  cases a with
  | panic m =>
    refine ⟨[⟨"error", [.str "PANIC", .str m]⟩], by rw [act, panic_line lossy w h], ?_⟩
    have e : formatter convert "" "PANIC".toList [m] = [⟨"", "PANIC"⟩, ⟨"", m⟩] := rfl
    simp only [Printed.line, strings, Option.map_some, List.map_cons, List.map_nil, e]
    by_cases hm : m = "" <;> simp [Shown, expected, hm]
  | log r =>
    by_cases ht : r.level = .trace
    · refine ⟨[], ?_, by simp [Shown, ht]⟩
      rw [act, if_neg (by rw [ht]; simp [Config.default, Level.rank]), List.append_nil]
    · refine ⟨[⟨kind r.level, [.str (format r), .str (levelStyle r.level), .str targetStyle, .str argsStyle]⟩], ?_, ?_⟩
      · rw [act, if_pos ⟨by revert ht; cases r.level <;> simp [Config.default, Level.rank], rfl⟩, chain,
          exec_console lossy dump w r.level (format_safe r) (by have := format_size r; have := h.2; omega)]
      · have hn : r.level.name ≠ "" := by cases r.level <;> decide
        have hsp : ∀ t : String, " " ++ t ≠ "" := by
          intro t e
          have := congrArg String.toList e
          simp at this
        simp [Printed.line, strings, formatter_format convert h.1, Shown, ht, expected, hn, hsp, kind_eq, levelStyle_eq, targetStyle, argsStyle]

/-! ## Theorems -/

/-- **C75, the browser.** Everything that is logged is on the console: one line for each record from `debug` on and for each panic, in the order in which it
happened, by the function for the level, with the level, the place and the very text of the message, whatever it contains. -/
theorem C75_console_partial (lossy : List UInt8 → String) (dump : JsValue → String) (convert : Char → String → String) (as : List Act) (h : ∀ a ∈ as, Good a)
    (w : List Printed) :
    ∃ ps, acts lossy dump w as = some (w ++ ps) ∧ ps.map (Printed.line convert) = (as.filter Shown).map fun a => some (expected a) := by
  induction as generalizing w with
  | nil => exact ⟨[], by simp [acts], rfl⟩
  | cons a as ih =>
    obtain ⟨ps, h1, h2⟩ := act_good lossy dump convert w (h a (by simp))
    obtain ⟨qs, h3, h4⟩ := ih (fun b hb => h b (by simp [hb])) (w ++ ps)
    refine ⟨ps ++ qs, by rw [acts, h1, Option.bind_some, h3, List.append_assoc], ?_⟩
    rw [List.map_append, h2, h4]
    by_cases hs : Shown a = true
    · simp [hs]
    · simp [hs]

/-- **C75, violated: byte order marks.** The message of a panic that begins with a byte order mark is shown without it. -/
theorem C75_mark_violated (lossy : List UInt8 → String) (dump : JsValue → String) (m : String) (w : List Printed) :
    act lossy dump w (.panic ("\uFEFF" ++ m)) = some (w ++ [⟨"error", [.str "PANIC", .str m]⟩]) := by
  have e : strBytes ("\uFEFF" ++ m) = Ts.bom ++ strBytes m := by
    rw [strBytes_append]
    congr 1
  have : readMem (strBytes ("\uFEFF" ++ m)) 0 (strBytes ("\uFEFF" ++ m)).length = Ts.bom ++ strBytes m := by
    rw [← e]; simp [readMem]
  rw [act, panicMessage, this, Ts.textDecode]
  simp [Ts.bom, fromUtf8_strBytes]

theorem serverAct_log {r : Record} (h : Small (.log r)) (ht : r.level ≠ .trace) :
    serverAct (.log r) = some [serverLog (kind r.level) (format r)] := by
  have hlen : (build (chain r)).wireLen < 2 ^ 32 - 1 := console_size r.level (by have := format_size r; simp only [Small] at h; omega)
  obtain ⟨hsnap, hsize⟩ := toSnapshot_eq (build (chain r)) (by omega)
  have hc : Ssr.Memory.Carried (build (chain r)) :=
    ⟨by simp [chain, console4, build, Access.item, JsValue.WF, JsValue.WFL],
      by simp [chain, console4, build, Access.item, JsValue.NoObject, JsValue.NoObjectL], by omega⟩
  have hl := encV_length (build (chain r))
  have hv : Ssr.Memory.getValue (encV (build (chain r))) 0 (build (chain r)).getSize.toNat = .ok (build (chain r)) := by
    rw [hsize]
    unfold Ssr.Memory.getValue
    rw [if_pos (by omega), show readMem (encV (build (chain r))) 0 (build (chain r)).wireLen = encV (build (chain r)) by
      rw [← hl]; simp [readMem], Ssr.Memory.fromBlock_enc hc]
  have hd : Ssr.dispatch (build (chain r)) = .log (kind r.level) (format r) :=
    Ssr.C20_recognised (c := .console (kind r.level) (format r) (levelStyle r.level) targetStyle argsStyle) (headers := []) trivial
  rw [serverAct, if_pos ⟨by revert ht; cases r.level <;> simp [Config.default, Level.rank], rfl⟩, hsnap]
  simp only [hv, hd]

theorem serverAct_small {a : Act} (h : Small a) :
    ∃ l, serverAct a = some l ∧ List.Forall₂ About l (if Shown a then [a] else []) := by
  cases a with
  | panic m =>
    have e : readMem (strBytes m) 0 (strBytes m).length = strBytes m := by simp [readMem]
    refine ⟨[.panic (some m)], ?_, .cons rfl .nil⟩
    simp [serverAct, Ssr.Memory.getString, e, fromUtf8_strBytes]
  | log r =>
    by_cases ht : r.level = .trace
    · refine ⟨[], ?_, by simp [Shown, ht]⟩
      rw [serverAct, if_neg (by rw [ht]; simp [Config.default, Level.rank])]
    · refine ⟨_, serverAct_log h ht, ?_⟩
      rw [if_pos (by simp [Shown, ht])]
      exact .cons ⟨fun e => by rw [e]; decide, format_text r⟩ .nil

/-- **C75, the server, part.** Everything that is logged while a page is rendered is in the log of the server, in order, with the text of the message (and with the marks
`%c`, which only a browser understands). Missing: the levels, see the violation. -/
theorem C75_server_partial (as : List Act) (h : ∀ a ∈ as, Small a) : ∃ l, serverActs as = some l ∧ List.Forall₂ About l (as.filter Shown) := by
  induction as with
  | nil => exact ⟨[], rfl, .nil⟩
  | cons a as ih =>
    obtain ⟨l, h1, h2⟩ := serverAct_small (h a (by simp))
    obtain ⟨l', h3, h4⟩ := ih fun b hb => h b (by simp [hb])
    refine ⟨l ++ l', by rw [serverActs, h1, Option.bind_some, h3]; rfl, ?_⟩
    by_cases hs : Shown a = true
    · rw [if_pos hs] at h2
      rw [List.filter_cons_of_pos hs]
      exact List.rel_append h2 h4
    · rw [if_neg hs] at h2
      rw [List.filter_cons_of_neg hs]
      exact List.rel_append h2 h4

/-- **C75, violated: levels on the server.** An error is logged as a warning, and a warning as information. -/
theorem C75_server_violated (r : Record) (h : Small (.log r)) :
    (r.level = .error → ∃ text, serverAct (.log r) = some [.message .warn text]) ∧
    (r.level = .warn → ∃ text, serverAct (.log r) = some [.message .info text]) := by
  constructor <;> (intro e; refine ⟨format r, ?_⟩; rw [serverAct_log h (by rw [e]; decide), e]; rfl)

/-- **C75, violated: names of files.** A format specifier in the name of a file takes the style of the message, and a mark is in the text. -/
theorem C75_file_violated (lossy : List UInt8 → String) (dump : JsValue → String) (convert : Char → String → String) :
    ∃ ps, acts lossy dump [] [.log ⟨.info, "app", some "src/50%cent.rs", some 3, "hello"⟩] = some ps ∧
      ps.map (Printed.line convert) = [some ⟨"info", [⟨"color: white; padding: 0 3px; background: green;", "INFO"⟩,
        ⟨"font-weight: bold; color: inherit", " src/50"⟩, ⟨"background: inherit; color: inherit", "ent.rs:3%c hello"⟩]⟩] := by
  refine ⟨[⟨"info", [.str "%cINFO%c src/50%cent.rs:3%c hello", .str (levelStyle .info), .str targetStyle, .str argsStyle]⟩], ?_, rfl⟩
  simp only [acts, act]
  rw [if_pos (by decide), chain, exec_console lossy dump [] _ (format_safe _) (by decide +kernel)]
  rfl

/-! ## Cases -/

/-- An application with percent signs in its messages, a trace and a panic. -/
def sample : List Act :=
  [.log ⟨.info, "app", some "src/lib.rs", some 12, "100%s of %c loaded"⟩, .log ⟨.trace, "app", none, none, "not shown"⟩,
    .log ⟨.error, "app::io", none, none, ""⟩, .panic "panicked at 'index', %s"]

theorem sample_good : ∀ a ∈ sample, Good a := by
  intro a ha
  simp only [sample, List.mem_cons, List.not_mem_nil, or_false] at ha
  have f1 : NoSpecifier "src/lib.rs" := free_of_not_mem (by decide)
  have f2 : NoSpecifier "app" := free_of_not_mem (by decide)
  have f3 : NoSpecifier "app::io" := free_of_not_mem (by decide)
  rcases ha with rfl | rfl | rfl | rfl
  · exact ⟨f1, by decide +kernel⟩
  · exact ⟨f2, by decide +kernel⟩
  · exact ⟨f3, by decide +kernel⟩
  · show ¬ Ts.bom <+: strBytes "panicked at 'index', %s"
    decide +kernel

example (lossy : List UInt8 → String) (dump : JsValue → String) (convert : Char → String → String) :
    ∃ ps, acts lossy dump [] sample = some ps ∧ ps.map (Printed.line convert) =
      [some ⟨"info", [⟨"color: white; padding: 0 3px; background: green;", "INFO"⟩, ⟨"font-weight: bold; color: inherit", " src/lib.rs:12"⟩,
        ⟨"background: inherit; color: inherit", " 100%s of %c loaded"⟩]⟩,
      some ⟨"error", [⟨"color: white; padding: 0 3px; background: darkred;", "ERROR"⟩, ⟨"font-weight: bold; color: inherit", " app::io:[Unknown]"⟩,
        ⟨"background: inherit; color: inherit", " "⟩]⟩,
      some ⟨"error", [⟨"", "PANIC"⟩, ⟨"", "panicked at 'index', %s"⟩]⟩] := by
  obtain ⟨ps, h1, h2⟩ := C75_console_partial lossy dump convert sample sample_good []
  exact ⟨ps, by simpa using h1, h2.trans (by decide +kernel)⟩

example : ∃ l, serverActs sample = some l ∧ List.Forall₂ About l (sample.filter Shown) :=
  C75_server_partial sample fun a ha => by
    have := sample_good a ha
    cases a with
    | log r => exact this.2
    | panic m => trivial

end Verif.Host.Logging
