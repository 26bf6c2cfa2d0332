import Verif.Host.TimersProof
import Verif.Ssr.Whole
/-!
# C54: what the driver reports of its surroundings

Sources: `crates/vertigo/src/driver_module/api/api_import.rs:266-304, 633-688` (`instant_now`, `utc_now`, `timezone_offset`,
`get_random`, `is_browser`, `get_env`), `crates/vertigo/src/driver_module/driver.rs:196-207` (`get_random_from`),
`crates/vertigo/src/instant.rs`, `crates/vertigo/src/driver_module/src_js/api_browser.ts:30-46`,
`crates/vertigo-cli/src/serve/request_state.rs:10-14`, `crates/vertigo-cli/src/serve/html/html_response.rs:88-90`.

The calls go through the model of access chains (C51), the page through the models of the response (C32) and of the way a
browser reads it (C29).

Simplification: `Math.floor(Math.random() * range)` is a number of the browser, about which the theorems assume that it is at
least 0 and below `range`.
-/
namespace Verif.Host.Queries
open Verif.Codec
open Verif.Json (intToF64 f64ToInt)
open Verif.Ssr (lower)

/-! ## Model: the browser -/

/-- The clock in ms, `Math.floor(Math.random() * range)`, the offset of the time zone in minutes, and the attributes of `html`. -/
structure Browser where
  clock : Int
  random : Int → Int
  zone : Int
  attrs : List (List Char × List Char)

/-- `api`, `window`, `window.Date`, and data. -/
inductive Val where
  | api
  | window
  | date
  | js (j : Js)

/-- `getAttribute` (DOM, 4.9): the name is converted to lower case, the first attribute with the name counts. -/
def Browser.getAttribute (b : Browser) (name : String) : Option String := (b.attrs.lookup (name.toList.map lower)).map String.ofList

/-- api_browser.ts:30-46 and `Date.now` in the browser as access chains see it. -/
def world : World Browser Val where
  api := .api
  window := .window
  document := .js .other
  null := .js .null
  undefined := .js .undefined
  node := fun _ _ => none
  give := fun w j => (.js j, w)
  read := fun _ r => match r with | .js j => j | _ => .other
  get := fun w r p =>
    match r with
    | .window => if p = "Date" then (some .date, w) else (some (.js .undefined), w)
    | _ => (none, w)
  set := fun w _ _ _ => (false, w)
  call := fun w r f args =>
    match r, args with
    | .api, [.js (.num min), .js (.num max)] =>
        if f = "getRandom" then
          let min := f64ToInt (-2 ^ 63) (2 ^ 63 - 1) min
          let max := f64ToInt (-2 ^ 63) (2 ^ 63 - 1) max
          (some (.js (.num (intToF64 (min + w.random (max - min + 1))))), w)
        else (none, w)
    | .api, [.js (.str name)] =>
        if f = "get_env" then
          match w.getAttribute ("data-env-" ++ name) with
          | some v => (some (.js (.str v)), w)
          | none => (some (.js .null), w)
        else (none, w)
    | .api, [] =>
        if f = "isBrowser" then (some (.js (.bool true)), w)
        else if f = "getTimezoneOffset" then (some (.js (.num (intToF64 w.zone))), w)
        else (none, w)
    | .date, [] => if f = "now" then (some (.js (.num (intToF64 w.clock))), w) else (none, w)
    | _, _ => (none, w)

/-! ## Model: api_import.rs, driver.rs, instant.rs -/

/-- A value, and whether a panic message was shown. -/
structure Reply (α : Type) where
  value : α
  message : Bool

/-- `fetch` of a chain. -/
def ask (lossy : List UInt8 → String) (b : Browser) (chain : List Access) : Answer :=
  match (build chain).toSnapshot with
  | .ok m => (domAccess world lossy b m.written 0 m.size).1
  | _ => .exception

/-- api_import.rs:640-646 -/
def randomReply (min : UInt32) : Answer → Reply UInt32
  | .value (.i32 result) => ⟨result.toUInt32, false⟩
  | _ => ⟨min, true⟩

/-- api_import.rs:633-647 -/
def getRandom (lossy : List UInt8 → String) (b : Browser) (min max : UInt32) : Reply UInt32 :=
  randomReply min (ask lossy b [.api, .call "getRandom" [.u32 min, .u32 max]])

/-- driver.rs:196-207; the outer `none` is the panic of the index. -/
def getRandomFrom {α : Type} (lossy : List UInt8 → String) (b : Browser) (list : List α) : Option (Option α) :=
  if list.length < 1 then some none
  else (list[(getRandom lossy b 0 (UInt32.ofNat (list.length - 1))).value.toNat]?).map some

/-- api_import.rs:270-287 -/
def utcNow (lossy : List UInt8 → String) (b : Browser) : Reply Int64 :=
  match ask lossy b [.root "window", .get "Date", .call "now" []] with
  | .value (.i64 time) => ⟨time, false⟩
  | .value (.f64 time) => ⟨Int64.ofInt (f64ToInt (-2 ^ 63) (2 ^ 63 - 1) time), false⟩
  | _ => ⟨0, true⟩

/-- api_import.rs:266-268 -/
def instantNow (lossy : List UInt8 → String) (b : Browser) : UInt64 := (utcNow lossy b).value.toUInt64

/-- instant.rs:30-32: `elapsed` of an instant; `none` is the panic of the subtraction when overflow is checked. -/
def elapsed (lossy : List UInt8 → String) (checked : Bool) (instant : UInt64) (b : Browser) : Option UInt64 :=
  if checked && instantNow lossy b < instant then none else some (instantNow lossy b - instant)

/-- instant.rs:38-45, `add_duration`, for a duration in ms. -/
def addDuration (instant : UInt64) (ms : Nat) : UInt64 := instant + UInt64.ofNat ms

/-- instant.rs:48-50 -/
def isExpire (lossy : List UInt8 → String) (instant : UInt64) (b : Browser) : Bool := instant < instantNow lossy b

/-- api_import.rs:289-304 -/
def timezoneOffset (lossy : List UInt8 → String) (b : Browser) : Reply Int32 :=
  match ask lossy b [.api, .call "getTimezoneOffset" []] with
  | .value (.i32 result) => ⟨result * -60, false⟩
  | _ => ⟨0, true⟩

/-- api_import.rs:660-677 -/
def isBrowser (lossy : List UInt8 → String) (b : Browser) : Bool :=
  match ask lossy b [.api, .call "isBrowser" []] with
  | .value .tru => true
  | _ => false

/-- api_import.rs:668-686 -/
def getEnv (lossy : List UInt8 → String) (b : Browser) (name : String) : Option String :=
  match ask lossy b [.api, .call "get_env" [.str name]] with
  | .value (.str value) => some value
  | _ => none

/-- The answer of the server to `get_env`: wasm_instance.rs:67-75, request_state.rs:10-14. -/
def serverEnv (env : List (String × String)) (name : String) : Option String := env.lookup name

/-! ## Proofs -/

theorem ask_ok (lossy : List UInt8 → String) (b : Browser) (chain : List Access) (hp : ∀ a ∈ chain, a.Plain)
    (hw : (build chain).WF) (hs : Ts.JsSafe (build chain)) (hl : (build chain).wireLen < 2 ^ 32) {r : Val}
    (hc : Chain world chain b world.null (some r) b) {v : JsValue} (ha : Arrives (world.read b r) v) (hvw : v.WF) (hvs : Ts.JsSafe v)
    (hvl : v.wireLen + 1 < 2 ^ 32) : ask lossy b chain = .value v := by
  obtain ⟨hsnap, -⟩ := toSnapshot_eq _ hl
  have := (C51_chain_partial world lossy chain hp hw hs hl (encV (build chain)) 0 _ ⟨_, [], hsnap, by simp, Nat.zero_le _, rfl⟩ b _ _ hc).2 r v rfl
    ha hvw hvs hvl
  simp only [ask, hsnap, this]

theorem builds_js (b : Browser) (js : List Js) : Builds world b js (js.map Val.js) b := by
  induction js with
  | nil => exact .nil b
  | cons j js ih => exact .cons (o := world) b b j js _ ih

/-- A call of a function of `api`. -/
theorem ask_api (lossy : List UInt8 → String) (b : Browser) (f : String) (params : List JsValue) (js : List Js)
    (hd : DenotesL params js) (hw : JsValue.WFL params) (hs : Ts.JsSafeL params) (hf : ¬ Ts.bom <+: strBytes f)
    (hl : f.utf8ByteSize + JsValue.wireLenL params < 2 ^ 32 - 100) (r : Val)
    (hc : world.call b .api f (js.map Val.js) = (some r, b)) (v : JsValue) (ha : Arrives (world.read b r) v)
    (hvw : v.WF) (hvs : Ts.JsSafe v) (hvl : v.wireLen + 1 < 2 ^ 32) : ask lossy b [.api, .call f params] = .value v := by
  have hcall := Does.call (o := world) f params js _ b b .api hd (builds_js b js)
  rw [hc] at hcall
  refine ask_ok lossy b _ (by simp [Access.Plain]) ?_ ?_ ?_ (r := r) ?_ ha hvw hvs hvl
  · simp [build, Access.item, JsValue.WF, JsValue.WFL, hw]
  · have e1 : ¬ Ts.bom <+: strBytes "api" := by decide
    have e4 : ¬ Ts.bom <+: strBytes "call" := by decide
    simp only [build, Access.item, List.map, Ts.JsSafe, Ts.JsSafeL]
    exact ⟨⟨e1, trivial⟩, ⟨e4, hf, hs⟩, trivial⟩
  · have e1 : "api".utf8ByteSize = 3 := by decide
    have e4 : "call".utf8ByteSize = 4 := by decide
    simp only [build, Access.item, List.map, JsValue.wireLen, JsValue.wireLenL, e1, e4]
    omega
  · exact .cons _ _ b b _ _ .api _ (.api b _) (.cons _ _ _ _ _ _ r _ hcall (.nil _ _))

/-- `Date.now()`. -/
theorem ask_now (lossy : List UInt8 → String) (b : Browser) (v : JsValue) (ha : Arrives (.num (intToF64 b.clock)) v)
    (hvw : v.WF) (hvs : Ts.JsSafe v) (hvl : v.wireLen + 1 < 2 ^ 32) :
    ask lossy b [.root "window", .get "Date", .call "now" []] = .value v := by
  have hcall := Does.call (o := world) "now" [] [] _ b b .date .nil (builds_js b [])
  have hc : world.call b .date "now" (([] : List Js).map Val.js) = (some (.js (.num (intToF64 b.clock))), b) := by simp [world]
  rw [hc] at hcall
  refine ask_ok lossy b _ (by simp [Access.Plain]) (by simp [build, Access.item, JsValue.WF, JsValue.WFL]) ?_ (by decide)
    (r := .js (.num (intToF64 b.clock))) ?_ ha hvw hvs hvl
  · have e1 : ¬ Ts.bom <+: strBytes "root" := by decide
    have e2 : ¬ Ts.bom <+: strBytes "window" := by decide
    have e3 : ¬ Ts.bom <+: strBytes "get" := by decide
    have e4 : ¬ Ts.bom <+: strBytes "Date" := by decide
    have e5 : ¬ Ts.bom <+: strBytes "call" := by decide
    have e6 : ¬ Ts.bom <+: strBytes "now" := by decide
    simp only [build, Access.item, List.map, Ts.JsSafe, Ts.JsSafeL]
    exact ⟨⟨e1, e2, trivial⟩, ⟨e3, e4, trivial⟩, ⟨e5, e6, trivial⟩, trivial⟩
  · exact .cons _ _ b b _ _ .window _ (.window b _) (.cons _ _ b b _ _ .date _ (.get (o := world) "Date" b .window)
      (.cons _ _ _ _ _ _ _ _ hcall (.nil _ _)))

open Timers (float_int)

/-- A whole number outside of the range of `i32` arrives as a float. -/
theorem arrives_big {i : Int} (h1 : 2 ^ 31 ≤ i ∨ i < -2 ^ 31) (h2 : -2 ^ 53 < i) (h3 : i < 2 ^ 53) :
    Arrives (.num (intToF64 i)) (.f64 (intToF64 i)) := by
  refine .float _ ?_ ?_
  · intro n e
    have h4 := n.le_toInt
    have h5 := n.toInt_lt
    have := congrArg (f64ToInt (-2 ^ 63) (2 ^ 63 - 1)) e
    rw [float_int h2 h3, float_int (by omega) (by omega)] at this
    omega
  · intro e
    have := congrArg (f64ToInt (-2 ^ 63) (2 ^ 63 - 1)) e
    rw [float_int h2 h3] at this
    have hz : f64ToInt (-2 ^ 63) (2 ^ 63 - 1) (2 ^ 63) = 0 := by decide +kernel
    rw [hz] at this
    omega

theorem arrives_small {i : Int} (h1 : -2 ^ 31 ≤ i) (h2 : i < 2 ^ 31) : Arrives (.num (intToF64 i)) (.i32 (Int32.ofInt i)) := by
  have := Arrives.int (Int32.ofInt i)
  rwa [Int32.toInt_ofInt_of_le h1 h2] at this

theorem random_call (b : Browser) (min max : UInt32) :
    world.call b .api "getRandom" ([Js.num (intToF64 min.toNat), Js.num (intToF64 max.toNat)].map Val.js) =
      (some (.js (.num (intToF64 (min.toNat + b.random (max.toNat - min.toNat + 1))))), b) := by
  have h1 := min.toNat_lt
  have h2 := max.toNat_lt
  simp only [world, List.map, if_true]
  rw [float_int (by omega) (by omega), float_int (by omega) (by omega)]

theorem random_ask (lossy : List UInt8 → String) (b : Browser) (min max : UInt32) {v : JsValue}
    (ha : Arrives (.num (intToF64 (min.toNat + b.random (max.toNat - min.toNat + 1)))) v) (hvw : v.WF) (hvs : Ts.JsSafe v)
    (hvl : v.wireLen + 1 < 2 ^ 32) : ask lossy b [.api, .call "getRandom" [.u32 min, .u32 max]] = .value v := by
  refine ask_api lossy b "getRandom" _ _ (.cons _ _ _ _ (.u32 min) (.cons _ _ _ _ (.u32 max) .nil)) (by simp [JsValue.WFL, JsValue.WF])
    (by simp [Ts.JsSafeL, Ts.JsSafe]) (by decide) ?_ _ (random_call b min max) v ha hvw hvs hvl
  have e1 : "getRandom".utf8ByteSize = 9 := by decide
  simp only [JsValue.wireLenL, JsValue.wireLen, e1]; omega

theorem toUInt32_ofInt {i : Int} (h0 : 0 ≤ i) (h : i < 2 ^ 31) : ((Int32.ofInt i).toUInt32.toNat : Int) = i := by
  have e := Int32.toInt_ofInt_of_le (n := i) (by omega) (by omega)
  rw [Int32.toInt, BitVec.toInt_eq_toNat_cond] at e
  have e2 : (Int32.ofInt i).toUInt32.toNat = (Int32.ofInt i).toBitVec.toNat := rfl
  rw [e2]
  have := (Int32.ofInt i).toBitVec.isLt
  split at e <;> omega

theorem random_small (lossy : List UInt8 → String) (b : Browser) {min max : UInt32} {r : Int} (hr : b.random (max.toNat - min.toNat + 1) = r)
    (h0 : 0 ≤ min.toNat + r) (h1 : min.toNat + r < 2 ^ 31) :
    (getRandom lossy b min max).message = false ∧ ((getRandom lossy b min max).value.toNat : Int) = min.toNat + r := by
  subst hr
  have ha := arrives_small (i := min.toNat + b.random (max.toNat - min.toNat + 1)) (by omega) h1
  have := random_ask lossy b min max ha (by simp [JsValue.WF]) (by simp [Ts.JsSafe]) (by simp [JsValue.wireLen])
  rw [getRandom, this]
  exact ⟨rfl, toUInt32_ofInt h0 h1⟩

theorem random_big (lossy : List UInt8 → String) (b : Browser) {min max : UInt32} {r : Int} (hr : b.random (max.toNat - min.toNat + 1) = r)
    (h0 : 2 ^ 31 ≤ min.toNat + r) (h1 : min.toNat + r < 2 ^ 53) : getRandom lossy b min max = ⟨min, true⟩ := by
  subst hr
  have ha := arrives_big (i := min.toNat + b.random (max.toNat - min.toNat + 1)) (.inl h0) (by omega) h1
  have := random_ask lossy b min max ha (by simp [JsValue.WF]) (by simp [Ts.JsSafe]) (by simp [JsValue.wireLen])
  rw [getRandom, this]
  rfl

/-! ## Theorems -/

/-- **C54, random numbers.** `get_random(min, max)` is between `min` and `max`, and is whatever number in this range the browser has
drawn. -/
theorem C54_random_partial (lossy : List UInt8 → String) (b : Browser) (min max : UInt32) (hmax : max.toNat < 2 ^ 31)
    (hr : 0 ≤ b.random (max.toNat - min.toNat + 1) ∧ b.random (max.toNat - min.toNat + 1) < max.toNat - min.toNat + 1) :
    (getRandom lossy b min max).message = false ∧ min ≤ (getRandom lossy b min max).value ∧ (getRandom lossy b min max).value ≤ max ∧
      ((getRandom lossy b min max).value.toNat : Int) = min.toNat + b.random (max.toNat - min.toNat + 1) := by
  obtain ⟨h1, h2⟩ := random_small lossy b (min := min) (max := max) rfl (by omega) (by omega)
  refine ⟨h1, ?_, ?_, h2⟩
  · rw [UInt32.le_iff_toNat_le]; omega
  · rw [UInt32.le_iff_toNat_le]; omega

/-- **C54 violated, random numbers.** A number of 2^31 or more does not arrive: a panic message is shown and the answer is `min`. -/
theorem C54_random_violated (lossy : List UInt8 → String) (b : Browser) (min max : UInt32)
    (hr : b.random (max.toNat - min.toNat + 1) < max.toNat - min.toNat + 1)
    (hbig : 2 ^ 31 ≤ min.toNat + b.random (max.toNat - min.toNat + 1)) : getRandom lossy b min max = ⟨min, true⟩ := by
  have := max.toNat_lt
  exact random_big lossy b rfl hbig (by omega)

/-- **C54, random elements.** `get_random_from` never fails; it gives `None` for the empty list only, and otherwise an element of the
list. -/
theorem C54_random_from {α : Type} (lossy : List UInt8 → String) (b : Browser) (list : List α) (hl : list.length ≤ 2 ^ 32)
    (hr : ∀ n : Int, 0 < n → 0 ≤ b.random n ∧ b.random n < n) :
    (list = [] → getRandomFrom lossy b list = some none) ∧ (list ≠ [] → ∃ x ∈ list, getRandomFrom lossy b list = some (some x)) := by
  constructor
  · rintro rfl; rfl
  · intro hne
    have hlen : 0 < list.length := List.length_pos_iff.2 hne
    simp only [getRandomFrom, if_neg (show ¬ list.length < 1 by omega)]
    have hmax : (UInt32.ofNat (list.length - 1)).toNat = list.length - 1 := by rw [UInt32.toNat_ofNat']; omega
    have hz : (0 : UInt32).toNat = 0 := rfl
    obtain ⟨h1, h2⟩ := hr ((UInt32.ofNat (list.length - 1)).toNat - (0 : UInt32).toNat + 1) (by omega)
    have hin : (getRandom lossy b 0 (UInt32.ofNat (list.length - 1))).value.toNat < list.length := by
      by_cases hb : (0 : UInt32).toNat + b.random ((UInt32.ofNat (list.length - 1)).toNat - (0 : UInt32).toNat + 1) < 2 ^ 31
      · have := (random_small lossy b rfl (by omega) hb).2
        omega
      · rw [random_big lossy b rfl (by omega) (by omega)]
        simpa using hlen
    rw [List.getElem?_eq_getElem hin]
    exact ⟨_, List.getElem_mem hin, rfl⟩

/-- **C54, the clock.** `utc_now` is the time of the browser in ms (from 25 January 1970 on). -/
theorem C54_clock_partial (lossy : List UInt8 → String) (b : Browser) (h1 : 2 ^ 31 ≤ b.clock) (h2 : b.clock < 2 ^ 53) :
    (utcNow lossy b).message = false ∧ (utcNow lossy b).value.toInt = b.clock ∧ ((instantNow lossy b).toNat : Int) = b.clock := by
  have := ask_now lossy b (.f64 (intToF64 b.clock)) (arrives_big (.inl h1) (by omega) h2) (by simp [JsValue.WF]) (by simp [Ts.JsSafe])
    (by simp [JsValue.wireLen])
  have hv : (utcNow lossy b).value = Int64.ofInt b.clock := by simp only [utcNow, this]; rw [float_int (by omega) h2]
  have e : (Int64.ofInt b.clock).toInt = b.clock := Int64.toInt_ofInt_of_le (by omega) (by omega)
  refine ⟨by simp only [utcNow, this], by rw [hv, e], ?_⟩
  rw [instantNow, hv]
  rw [Int64.toInt, BitVec.toInt_eq_toNat_cond] at e
  have e2 : (Int64.ofInt b.clock).toUInt64.toNat = (Int64.ofInt b.clock).toBitVec.toNat := rfl
  rw [e2]
  have := (Int64.ofInt b.clock).toBitVec.isLt
  split at e <;> omega

/-- **C54 violated, the clock.** In the first days after 1 January 1970 (a device without a clock) the time does not arrive: a panic
message is shown and the answer is 0. -/
theorem C54_clock_violated (lossy : List UInt8 → String) (b : Browser) (h1 : -2 ^ 31 ≤ b.clock) (h2 : b.clock < 2 ^ 31) :
    utcNow lossy b = ⟨0, true⟩ := by
  have := ask_now lossy b (.i32 (Int32.ofInt b.clock)) (arrives_small h1 h2) (by simp [JsValue.WF]) (by simp [Ts.JsSafe])
    (by simp [JsValue.wireLen])
  simp only [utcNow, this]

/-- **C54, elapsed time.** If the clock has not been set back, `elapsed` is the time between two readings, and an instant
expires when its duration is over. -/
theorem C54_elapsed_partial (lossy : List UInt8 → String) (checked : Bool) (b b' : Browser) (h1 : 2 ^ 31 ≤ b.clock) (h2 : b'.clock < 2 ^ 53)
    (h3 : b.clock ≤ b'.clock) :
    (∃ ms, elapsed lossy checked (instantNow lossy b) b' = some ms ∧ (ms.toNat : Int) = b'.clock - b.clock) ∧
    ∀ d : Nat, d < 2 ^ 53 → (isExpire lossy (addDuration (instantNow lossy b) d) b' = true ↔ b.clock + d < b'.clock) := by
  have e1 := (C54_clock_partial lossy b h1 (by omega)).2.2
  have e2 := (C54_clock_partial lossy b' (by omega) h2).2.2
  have hle : ¬ instantNow lossy b' < instantNow lossy b := by rw [UInt64.lt_iff_toNat_lt]; omega
  constructor
  · refine ⟨instantNow lossy b' - instantNow lossy b, ?_, ?_⟩
    · simp [elapsed, hle]
    · rw [UInt64.toNat_sub]
      have := (instantNow lossy b').toNat_lt
      omega
  · intro d hd
    simp only [isExpire, decide_eq_true_eq]
    rw [addDuration, UInt64.lt_iff_toNat_lt, UInt64.toNat_add, UInt64.toNat_ofNat']
    omega

/-- **C54 violated, elapsed time.** The clock is not monotonic, although `Instant` says so: it is the clock of the day. If it is set
back, `elapsed` panics or, without overflow checks, is almost 2^64. -/
theorem C54_elapsed_violated (lossy : List UInt8 → String) (b b' : Browser) (h1 : 2 ^ 31 ≤ b'.clock) (h2 : b.clock < 2 ^ 53)
    (h3 : b'.clock < b.clock) :
    elapsed lossy true (instantNow lossy b) b' = none ∧
    ∃ ms, elapsed lossy false (instantNow lossy b) b' = some ms ∧ (ms.toNat : Int) = 2 ^ 64 - (b.clock - b'.clock) := by
  have e1 := (C54_clock_partial lossy b (by omega) h2).2.2
  have e2 := (C54_clock_partial lossy b' h1 (by omega)).2.2
  have hlt : instantNow lossy b' < instantNow lossy b := by rw [UInt64.lt_iff_toNat_lt]; omega
  constructor
  · simp [elapsed, hlt]
  · refine ⟨_, by simp [elapsed]; rfl, ?_⟩
    rw [UInt64.toNat_sub]
    have := (instantNow lossy b).toNat_lt
    omega

/-- **C54, the time zone.** `timezone_offset` is the offset in seconds, positive to the east. -/
theorem C54_zone (lossy : List UInt8 → String) (b : Browser) (h1 : -1440 ≤ b.zone) (h2 : b.zone ≤ 1440) :
    (timezoneOffset lossy b).message = false ∧ (timezoneOffset lossy b).value.toInt = -60 * b.zone := by
  have hc : world.call b .api "getTimezoneOffset" (([] : List Js).map Val.js) = (some (.js (.num (intToF64 b.zone))), b) := by simp [world]
  have := ask_api lossy b "getTimezoneOffset" [] [] .nil (by simp [JsValue.WFL]) (by simp [Ts.JsSafeL]) (by decide) (by decide) _ hc
    (.i32 (Int32.ofInt b.zone)) (arrives_small (by omega) (by omega)) (by simp [JsValue.WF]) (by simp [Ts.JsSafe]) (by simp [JsValue.wireLen])
  simp only [timezoneOffset, this]
  refine ⟨trivial, ?_⟩
  have e := Int32.toInt_ofInt_of_le (n := b.zone) (by omega) (by omega)
  have e60 : (-60 : Int32).toInt = -60 := by decide
  rw [Int32.toInt_mul, e, e60, Int.bmod_def]
  omega

/-- **C54, where.** In the browser `is_browser` is true. -/
theorem C54_is_browser (lossy : List UInt8 → String) (b : Browser) : isBrowser lossy b = true := by
  have hc : world.call b .api "isBrowser" (([] : List Js).map Val.js) = (some (.js (.bool true)), b) := by simp [world]
  have := ask_api lossy b "isBrowser" [] [] .nil (by simp [JsValue.WFL]) (by simp [Ts.JsSafeL]) (by decide) (by decide) _ hc
    .tru .tru (by simp [JsValue.WF]) (by simp [Ts.JsSafe]) (by simp [JsValue.wireLen])
  simp only [isBrowser, this]

theorem getEnv_eq (lossy : List UInt8 → String) (b : Browser) (name : String) (hn : ¬ Ts.bom <+: strBytes name)
    (hs : name.utf8ByteSize < 2 ^ 31) (hv : ∀ v, b.getAttribute ("data-env-" ++ name) = some v → ¬ Ts.bom <+: strBytes v ∧ v.utf8ByteSize < 2 ^ 31) :
    getEnv lossy b name = b.getAttribute ("data-env-" ++ name) := by
  have e1 : "get_env".utf8ByteSize = 7 := by decide
  have hask := fun r v hc ha hvw hvs hvl => ask_api lossy b "get_env" [.str name] [.str name] (.cons _ _ _ _ (.str name) .nil) (by simp [JsValue.WFL, JsValue.WF])
    (by simp [Ts.JsSafeL, Ts.JsSafe, hn]) (by decide) (by simp only [JsValue.wireLenL, JsValue.wireLen, e1]; omega) r hc v ha hvw hvs hvl
  cases hg : b.getAttribute ("data-env-" ++ name) with
  | none =>
    have := hask (.js .null) .null (by simp [world, hg]) .null (by simp [JsValue.WF]) (by simp [Ts.JsSafe]) (by simp [JsValue.wireLen])
    simp only [getEnv, this]
  | some v =>
    obtain ⟨h1, h2⟩ := hv v hg
    have := hask (.js (.str v)) (.str v) (by simp [world, hg]) (.str v) (by simp [JsValue.WF]) (by simp [Ts.JsSafe, h1])
      (by simp only [JsValue.wireLen]; omega)
    simp only [getEnv, this]

/-- A name or value that fits and does not start with a byte order mark. -/
def Fits (s : String) : Prop := ¬ Ts.bom <+: strBytes s ∧ s.utf8ByteSize < 2 ^ 31

/-- **C54, the environment.** A variable given to the server has the same value in the browser, which reads it in the page that the server has sent, as during
the rendering on the server; and what was not given is `None` on both sides. -/
theorem C54_env_partial (lossy : List UInt8 → String) {e : Ssr.Escape} (he : e.Ok) {mount : Ssr.Mount}
    (hm : Ssr.Plain mount.runJs ∧ Ssr.Plain mount.wasmPath)
    {env : List (String × String)} (henv : (env.map (·.1)).Nodup) (hlow : ∀ v ∈ env, v.1.toList.map lower = v.1.toList)
    (hname : ∀ v ∈ env, Ssr.AttrName ("data-env-" ++ v.1) ∧ Ssr.Plain v.2 ∧ Fits v.2) {css : List (String × String)} (hcss : ∀ r ∈ css, Ssr.PlainRule r)
    {attr battr : Dom.OrderedMap} {own : List (String × String)} (hown : attr.getIter = some own)
    (hfree : ∀ a ∈ own, ¬ "data-env-".toList <+: Ssr.htmlName a.1)
    {before content after : List Dom.HtmlNode} (hbefore : ∀ n ∈ before, ¬ Ssr.Named "body" n)
    (hdoc : Ssr.Ok (.element "html" attr (before ++ .element "body" battr content :: after))) :
    ∃ text w attrs rest, Ssr.buildResponse e mount env (.element "html" attr (before ++ .element "body" battr content :: after)) css = .html text ∧
      Ssr.tokenize text = some (.doctype :: w ++ .startTag "html".toList attrs false :: rest) ∧ Ssr.Blank w ∧
      ∀ b : Browser, b.attrs = attrs → ∀ name, Fits name → name.toList.map lower = name.toList →
        getEnv lossy b name = serverEnv env name := by
  obtain ⟨text, w, ts, attr', h1, h2, h3, h4, h5⟩ := Ssr.C32_read_partial he hm henv hlow (fun v hv => ⟨(hname v hv).1, (hname v hv).2.1⟩) hcss hown
    hfree hbefore hdoc
  have hhead : ∃ rest, ts = .startTag "html".toList (Ssr.htmlAttrs attr') false :: rest := by
    have hn : Ssr.htmlName "html" = "html".toList := by decide
    generalize hd : Dom.HtmlNode.element "html" attr' _ = doc at h5
    cases h5 with
    | void h =>
      simp only [Dom.HtmlNode.element.injEq] at hd
      simp at hd
    | text hv h h' =>
      simp only [Dom.HtmlNode.element.injEq] at hd
      obtain ⟨rfl, rfl, -⟩ := hd
      exact ⟨_, by rw [hn]; rfl⟩
    | children hv h' h =>
      simp only [Dom.HtmlNode.element.injEq] at hd
      obtain ⟨rfl, rfl, -⟩ := hd
      exact ⟨_, by rw [hn]; rfl⟩
  obtain ⟨rest, rfl⟩ := hhead
  refine ⟨text, w, _, rest, h1, h3, h4, ?_⟩
  intro b hb name hfit hlown
  have hget : b.getAttribute ("data-env-" ++ name) = serverEnv env name := by
    have hl : ("data-env-" ++ name).toList.map lower = "data-env-".toList ++ name.toList := by
      rw [String.toList_append, List.map_append, hlown]; rfl
    simp only [Browser.getAttribute, hb, hl, Ssr.htmlAttrs, h2, Option.getD_some, List.map_append, List.map_map, serverEnv]
    have hskip : ∀ (l : List (String × String)) (l' : List (List Char × List Char)), (∀ a ∈ l, ¬ "data-env-".toList <+: Ssr.htmlName a.1) →
        (l.map (fun a => (Ssr.htmlName a.1, a.2.toList)) ++ l').lookup ("data-env-".toList ++ name.toList) = l'.lookup ("data-env-".toList ++ name.toList) := by
      intro l l'
      induction l with
      | nil => intro _; rfl
      | cons a l ih =>
        intro h
        have ha := h a List.mem_cons_self
        have : ("data-env-".toList ++ name.toList == Ssr.htmlName a.1) = false := by
          simp only [beq_eq_false_iff_ne]
          intro e
          exact ha (e ▸ List.prefix_append _ _)
        simp only [List.map_cons, List.cons_append, List.lookup, this]
        exact ih fun x hx => h x (List.mem_cons_of_mem _ hx)
    rw [hskip own _ hfree]
    have hfind : ∀ l : List (String × String), (∀ v ∈ l, v.1.toList.map lower = v.1.toList) →
        ((l.map ((fun a : String × String => (Ssr.htmlName a.1, a.2.toList)) ∘ fun v => ("data-env-" ++ v.1, v.2))).lookup ("data-env-".toList ++ name.toList)).map
          String.ofList = l.lookup name := by
      intro l
      induction l with
      | nil => intro _; rfl
      | cons v l ih =>
        intro h
        have hv := h v List.mem_cons_self
        have hkey : Ssr.htmlName ("data-env-" ++ v.1) = "data-env-".toList ++ v.1.toList := by
          rw [Ssr.htmlName, String.toList_append, List.map_append, hv]; rfl
        simp only [List.map_cons, Function.comp, List.lookup, hkey]
        by_cases e : name = v.1
        · have e1 : ("data-env-".toList ++ name.toList == "data-env-".toList ++ v.1.toList) = true := by rw [e]; exact beq_self_eq_true _
          have e2 : (name == v.1) = true := by simpa using e
          rw [e1, e2]
          simp
        · have e1 : ("data-env-".toList ++ name.toList == "data-env-".toList ++ v.1.toList) = false := by
            simp only [beq_eq_false_iff_ne]
            intro h
            exact e (String.toList_injective (List.append_cancel_left h))
          have e2 : (name == v.1) = false := by simpa using e
          rw [e1, e2]
          exact ih fun x hx => h x (List.mem_cons_of_mem _ hx)
    exact hfind env hlow
  rw [getEnv_eq lossy b name hfit.1 hfit.2 ?_, hget]
  intro v hv
  rw [hget, serverEnv] at hv
  have hmem : ∀ l : List (String × String), l.lookup name = some v → (name, v) ∈ l := by
    intro l
    induction l with
    | nil => intro h; simp at h
    | cons a l ih =>
      obtain ⟨a1, a2⟩ := a
      intro h
      simp only [List.lookup] at h
      split at h
      · rename_i e; simp at e h; simp [e, h]
      · exact List.mem_cons_of_mem _ (ih h)
  exact (hname _ (hmem env hv)).2.2

/-- **C54 violated, the environment.** Names of attributes have no case: with the variables `A` and `a` the browser finds the value of the first for
both, while the server knows both. -/
theorem C54_env_violated (lossy : List UInt8 → String) : ∃ (env : List (String × String)) (text : List Char) (attrs : List (List Char × List Char))
    (rest : List Ssr.Token), (env.map (·.1)).Nodup ∧
    Ssr.buildResponse Ssr.htmlEscape ⟨"/run.js", "/app.wasm"⟩ env (.element "html" {} ([] ++ .element "body" {} [] :: [])) [] = .html text ∧
    Ssr.tokenize text = some (.doctype :: [.char '\n'] ++ .startTag "html".toList attrs false :: rest) ∧
    ∀ b : Browser, b.attrs = attrs → serverEnv env "a" = some "2" ∧ getEnv lossy b "a" = some "1" := by
  let text := "<!DOCTYPE html>\n<html data-env-A=\"1\" data-env-a=\"2\">\n  <body>\n    <script type=\"module\" data-vertigo-run-wasm=\"/app.wasm\" src=\"/run.js\">\n    </script>\n  </body>\n</html>".toList
  refine ⟨[("A", "1"), ("a", "2")], text, [("data-env-a".toList, ['1'])], ((Ssr.tokenize text).getD []).drop 3, by decide, by decide +kernel,
    by decide +kernel, ?_⟩
  intro b hb
  have hg : b.getAttribute ("data-env-" ++ "a") = some "1" := by
    simp only [Browser.getAttribute, hb]
    decide +kernel
  refine ⟨rfl, ?_⟩
  rw [getEnv_eq lossy b "a" (by decide) (by decide), hg]
  intro v hv
  rw [hg] at hv
  simp only [Option.some.injEq] at hv
  subst hv
  exact ⟨by decide, by decide⟩

/-! ### Examples -/

/-- A browser that always draws the largest number. -/
def exampleBrowser : Browser := ⟨1700000000000, fun n => n - 1, -120, []⟩

example (lossy : List UInt8 → String) : (getRandom lossy exampleBrowser 3 10).value.toNat = 10 := by
  have := (C54_random_partial lossy exampleBrowser 3 10 (by decide) (by decide)).2.2.2
  have e : (((10 : UInt32).toNat : Int)) = 3 + exampleBrowser.random ((10 : UInt32).toNat - (3 : UInt32).toNat + 1) := by decide
  have e3 : (((3 : UInt32).toNat : Int)) = 3 := by decide
  have e10 : ((10 : UInt32).toNat) = 10 := by decide
  omega
example (lossy : List UInt8 → String) : getRandom lossy exampleBrowser 0 4294967295 = ⟨0, true⟩ :=
  C54_random_violated lossy exampleBrowser 0 4294967295 (by decide) (by decide)
example (lossy : List UInt8 → String) : (utcNow lossy exampleBrowser).value.toInt = 1700000000000 :=
  (C54_clock_partial lossy exampleBrowser (by decide) (by decide)).2.1
example (lossy : List UInt8 → String) : (timezoneOffset lossy exampleBrowser).value.toInt = 7200 :=
  (C54_zone lossy exampleBrowser (by decide) (by decide)).2
example (lossy : List UInt8 → String) : ∃ x ∈ ["a", "b"], getRandomFrom lossy exampleBrowser ["a", "b"] = some (some x) :=
  (C54_random_from lossy exampleBrowser ["a", "b"] (by decide) (fun n hn => by
    have : exampleBrowser.random n = n - 1 := rfl
    omega)).2 (by decide)
example (lossy : List UInt8 → String) : elapsed lossy true (instantNow lossy exampleBrowser) { exampleBrowser with clock := 1699999999999 } = none :=
  (C54_elapsed_violated lossy exampleBrowser _ (by decide) (by decide) (by decide)).1
example : ∀ v ∈ [("port", "80\"")], Ssr.AttrName ("data-env-" ++ v.1) ∧ Ssr.Plain v.2 ∧ Fits v.2 := by
  intro v hv
  simp only [List.mem_singleton] at hv
  subst hv
  exact ⟨⟨by decide, by decide⟩, by unfold Ssr.Plain; decide, by decide, by decide⟩

end Verif.Host.Queries
