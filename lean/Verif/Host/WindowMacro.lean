import Verif.Host.Access
/-!
# C80: `window!` and `document!`

Sources: `crates/vertigo-macro/src/{lib,api_access}.rs`, `crates/vertigo/src/driver_module/js_value/js_value_struct.rs` (lines 355-401).

The macro gets its first parameter as the text of a literal and makes a chain of accesses (C51) of it.

Simplifications: the arguments are given by their values (each is printed once into the expansion, in order).
-/
namespace Verif.Host.WindowMacro
open Verif.Codec
open Verif.Json (intToF64)

/-! ## Model -/

/-- The types that can be an argument: js_value_struct.rs:367-401. In a browser `isize` and `usize` have 32 bits. -/
inductive Arg where
  | i8 (v : Int8)
  | i16 (v : Int16)
  | i32 (v : Int32)
  | i64 (v : Int64)
  | isize (v : Int32)
  | u8 (v : UInt8)
  | u16 (v : UInt16)
  | u32 (v : UInt32)
  | u64 (v : UInt64)
  | usize (v : UInt32)
  | f64 (bits : UInt64)
  | str (s : String)
  | bool (b : Bool)
  | js (v : JsValue)

/-- `JsValue::from`: js_value_struct.rs:355-401; `From<JsValue>` is the identity. -/
def Arg.from : Arg → JsValue
  | .i8 v => .i32 v.toInt32
  | .i16 v => .i32 v.toInt32
  | .i32 v => .i32 v
  | .i64 v => .i64 v
  | .isize v => .i64 v.toInt64
  | .u8 v => .u32 v.toUInt32
  | .u16 v => .u32 v.toUInt32
  | .u32 v => .u32 v
  | .u64 v => .u64 v
  | .usize v => .u64 v.toUInt64
  | .f64 bits => .f64 bits
  | .str s => .str s
  | .bool b => if b then .tru else .fls
  | .js v => v

/-- The first parameter: a string literal (its text), another literal, another expression. -/
inductive First where
  | str (token : List Char)
  | lit
  | expr

/-- What becomes of the invocation. -/
inductive Expansion where
  | panic
  | error
  | access (chain : List Access)

/-- `trim_matches('"')` -/
def trimQuotes (s : List Char) : List Char := ((s.dropWhile (· = '"')).reverse.dropWhile (· = '"')).reverse

/-- `strip_suffix` -/
def stripSuffix (s suffix : List Char) : Option (List Char) :=
  if suffix <:+ s then some (s.take (s.length - suffix.length)) else none

/-- api_access.rs:6-67 -/
def expand (root : String) (first : Option First) (args : List Arg) : Expansion :=
  match first with
  | none => .panic
  | some (.str token) =>
      let param := trimQuotes token
      match stripSuffix param "()".toList with
      | some name => .access [.root root, .call (String.ofList name) (args.map Arg.from)]
      | none => if args = [] then .access [.root root, .get (String.ofList param)] else .error
  | some .lit => .error
  | some .expr => .error

/-- lib.rs:132-134 -/
def window (first : Option First) (args : List Arg) : Expansion := expand "window" first args

/-- lib.rs:138-140 -/
def document (first : Option First) (args : List Arg) : Expansion := expand "document" first args

/-! ## Specification -/

/-- A hexadecimal digit and its value. -/
def HexDigit (c : Char) (n : Nat) : Prop := n < 16 ∧ (c = "0123456789abcdef".toList.getD n ' ' ∨ c = "0123456789ABCDEF".toList.getD n ' ')

/-- Hexadecimal digits and their value; underscores may be between them. -/
inductive Hex : Nat → List Char → Prop
  | one : HexDigit c n → Hex n [c]
  | more : Hex k s → HexDigit c n → Hex (16 * k + n) (s ++ [c])
  | underscore : Hex k s → Hex k (s ++ ['_'])

/-- A piece of a string literal and its value (The Rust Reference, 2.6: string literals). -/
inductive Piece : List Char → List Char → Prop
  | char : c ≠ '"' → c ≠ '\\' → c ≠ '\r' → Piece [c] [c]
  | simple : (c, v) ∈ [('"', '"'), ('\'', '\''), ('\\', '\\'), ('n', '\n'), ('r', '\r'), ('t', '\t'), ('0', '\x00')] → Piece ['\\', c] [v]
  | ascii : HexDigit a x → x < 8 → HexDigit b y → v.toNat = 16 * x + y → Piece ['\\', 'x', a, b] [v]
  | unicode : Hex v.toNat s → Piece ('\\' :: 'u' :: '{' :: s ++ ['}']) [v]
  | continued : (∀ c ∈ s, c ∈ [' ', '\t', '\n', '\r']) → Piece ('\\' :: '\n' :: s) []

/-- The text between the quotes and its value. -/
inductive Body : List Char → List Char → Prop
  | nil : Body [] []
  | append : Body s v → Piece p w → Body (s ++ p) (v ++ w)

/-- A suffix is an identifier: nothing in it ends a literal. -/
def Suffix (x : List Char) : Prop := '"' ∉ x ∧ x ≠ []

/-- A string literal and its value; a suffix (`"a"x`, which macros may be given) is not part of the value. -/
inductive StrLit : List Char → List Char → Prop
  | plain : Body s v → StrLit ('"' :: s ++ ['"']) v
  | raw (n : Nat) : ¬ ('"' :: List.replicate n '#') <:+: v →
      StrLit ('r' :: List.replicate n '#' ++ '"' :: v ++ '"' :: List.replicate n '#') v
  | plainSuffix : Body s v → Suffix x → StrLit ('"' :: s ++ ['"'] ++ x) v
  | rawSuffix (n : Nat) : ¬ ('"' :: List.replicate n '#') <:+: v → Suffix x →
      StrLit ('r' :: List.replicate n '#' ++ '"' :: v ++ '"' :: List.replicate n '#' ++ x) v

/-- The value that JavaScript gets for an argument. -/
inductive Passed : Arg → Js → Prop
  | i8 (v : Int8) : Passed (.i8 v) (.num (intToF64 v.toInt))
  | i16 (v : Int16) : Passed (.i16 v) (.num (intToF64 v.toInt))
  | i32 (v : Int32) : Passed (.i32 v) (.num (intToF64 v.toInt))
  | i64 (v : Int64) : Passed (.i64 v) (.bigint v.toInt)
  | isize (v : Int32) : Passed (.isize v) (.bigint v.toInt)
  | u8 (v : UInt8) : Passed (.u8 v) (.num (intToF64 v.toNat))
  | u16 (v : UInt16) : Passed (.u16 v) (.num (intToF64 v.toNat))
  | u32 (v : UInt32) : Passed (.u32 v) (.num (intToF64 v.toNat))
  | u64 (v : UInt64) : Passed (.u64 v) (.bigint v.toNat)
  | usize (v : UInt32) : Passed (.usize v) (.bigint v.toNat)
  | f64 (bits : UInt64) : Passed (.f64 bits) (.num bits)
  | str (s : String) : Passed (.str s) (.str s)
  | bool (b : Bool) : Passed (.bool b) (.bool b)
  | js (v : JsValue) (j : Js) : Denotes v j → Passed (.js v) j

/-- The values of all arguments. -/
inductive PassedAll : List Arg → List Js → Prop
  | nil : PassedAll [] []
  | cons : Passed a j → PassedAll as js → PassedAll (a :: as) (j :: js)

/-- The two macros and the objects of the browser they are for. -/
inductive Of (o : World W R) : (Option First → List Arg → Expansion) → R → Prop
  | window : Of o window o.window
  | document : Of o document o.document

/-- What the literal with the value `v` asks for: a call if it ends with `()`, a property otherwise. -/
inductive Wanted (v : List Char) (args : List Arg) : Access → Prop
  | call (name : List Char) : v = name ++ ['(', ')'] → Wanted v args (.call (String.ofList name) (args.map Arg.from))
  | get : (¬ ∃ name, v = name ++ ['(', ')']) → args = [] → Wanted v args (.get (String.ofList v))

/-! ## Proofs -/

theorem dropWhile_neg {p : Char → Bool} : ∀ {s : List Char}, (∀ c ∈ s.head?, p c = false) → s.dropWhile p = s
  | [], _ => rfl
  | c :: s, h => by rw [List.dropWhile_cons, h c (by simp)]; rfl

/-- Both quotes are removed, and no more. -/
theorem trimQuotes_quoted {s : List Char} (h1 : s.head? ≠ some '"') (h2 : s.getLast? ≠ some '"') : trimQuotes ('"' :: s ++ ['"']) = s := by
  unfold trimQuotes
  cases hs : s with
  | nil => rfl
  | cons a s' =>
    have ha : a ≠ '"' := by intro e; rw [hs] at h1; simp [e] at h1
    rw [← hs]
    have e1 : ('"' :: s ++ ['"']).dropWhile (· = '"') = s ++ ['"'] := by
      rw [hs]
      simp [ha]
    rw [e1, List.reverse_append]
    have e2 : ((['"'] : List Char).reverse ++ s.reverse).dropWhile (· = '"') = s.reverse := by
      simp only [List.reverse_singleton, List.singleton_append, List.dropWhile_cons, decide_true, if_true]
      apply dropWhile_neg
      intro c hc
      rw [List.head?_reverse] at hc
      have : c ≠ '"' := by
        intro e
        rw [e] at hc
        exact h2 hc
      simpa using this
    rw [e2, List.reverse_reverse]

theorem stripSuffix_some (s name : List Char) : stripSuffix s ['(', ')'] = some name ↔ s = name ++ ['(', ')'] := by
  unfold stripSuffix
  constructor
  · intro h
    split at h
    · rename_i hs
      obtain ⟨t, rfl⟩ := hs
      simp at h
      rw [h]
    · simp at h
  · rintro rfl
    simp

theorem stripSuffix_none (s : List Char) : stripSuffix s ['(', ')'] = none ↔ ¬ ∃ name, s = name ++ ['(', ')'] := by
  cases h : stripSuffix s ['(', ')'] with
  | none =>
    simp only [true_iff]
    rintro ⟨name, hn⟩
    rw [(stripSuffix_some s name).mpr hn] at h
    cases h
  | some name => simp [(stripSuffix_some s name).mp h]

theorem head_ne {s : List Char} (h : c ∉ s) : s.head? ≠ some c := fun e => h (List.mem_of_mem_head? e)
theorem last_ne {s : List Char} (h : c ∉ s) : s.getLast? ≠ some c := fun e => h (List.mem_of_getLast? e)

theorem passed_from {a : Arg} {j : Js} (h : Passed a j) : Denotes a.from j := by
  cases h with
  | i8 v => have := Denotes.i32 v.toInt32; simpa [Arg.from] using this
  | i16 v => have := Denotes.i32 v.toInt32; simpa [Arg.from] using this
  | i32 v => exact .i32 v
  | i64 v => exact .i64 v
  | isize v => have := Denotes.i64 v.toInt64; simpa [Arg.from] using this
  | u8 v => have := Denotes.u32 v.toUInt32; simpa [Arg.from] using this
  | u16 v => have := Denotes.u32 v.toUInt32; simpa [Arg.from] using this
  | u32 v => exact .u32 v
  | u64 v => exact .u64 v
  | usize v => have := Denotes.u64 v.toUInt64; simpa [Arg.from] using this
  | f64 bits => exact .f64 bits
  | str s => exact .str s
  | bool b => cases b <;> first | exact Denotes.fls | exact Denotes.tru
  | js v j h => exact h

theorem passed_all {args : List Arg} {js : List Js} (h : PassedAll args js) : DenotesL (args.map Arg.from) js := by
  induction h with
  | nil => exact .nil
  | cons h _ ih => exact .cons _ _ _ _ (passed_from h) ih

theorem of_expand {o : World W R} {mac : Option First → List Arg → Expansion} {thing : R} (h : Of o mac thing) :
    ∃ root, mac = expand root ∧ ∀ w r, Does o (.root root) w r (some thing) w := by
  cases h with
  | window => exact ⟨"window", rfl, fun w r => .window w r⟩
  | document => exact ⟨"document", rfl, fun w r => .document w r⟩

/-- Two accesses, one after the other. -/
theorem two {o : World W R} {root : String} {thing : R} (hr : ∀ w r, Does o (.root root) w r (some thing) w) (lossy : List UInt8 → String)
    {a : Access} (ha : a.Plain) {w w' : W} {res : Option R} (h : Does o a w thing res w') {mem : List UInt8} {ptr size : Nat}
    (hm : Sent [.root root, a] mem ptr size) (hw : (build [.root root, a]).WF) (hs : Ts.JsSafe (build [.root root, a]))
    (hl : (build [.root root, a]).wireLen < 2 ^ 32) :
    (res = none → domAccess o lossy w mem ptr size = (.value .undefined, w')) ∧
    ∀ r v, res = some r → Arrives (o.read w' r) v → v.WF → Ts.JsSafe v → v.wireLen + 1 < 2 ^ 32 →
      domAccess o lossy w mem ptr size = (.value v, w') := by
  apply C51_chain_partial o lossy [.root root, a] (by
    intro b hb
    simp only [List.mem_cons, List.not_mem_nil, or_false] at hb
    rcases hb with rfl | rfl
    · trivial
    · exact ha) hw hs hl mem ptr size hm w w' res
  refine .cons _ _ _ w _ _ thing _ (hr w _) ?_
  cases res with
  | none => exact .fails _ _ _ _ _ h
  | some r => exact .cons _ _ _ w' _ _ r _ h (.nil _ _)

/-- Text between quotes. -/
theorem piece_len {p v : List Char} (h : Piece p v) : (p = v ∧ '"' ∉ p ∧ '\\' ∉ p) ∨ v.length < p.length := by
  cases h with
  | char h1 h2 _ => exact .inl ⟨rfl, by simpa using Ne.symm h1, by simpa using Ne.symm h2⟩
  | simple _ => exact .inr (by simp)
  | ascii _ _ _ _ => exact .inr (by simp)
  | unicode _ => exact .inr (by simp)
  | continued _ => exact .inr (by simp)

theorem piece_ne {p v : List Char} (h : Piece p v) : p ≠ [] := by cases h <;> simp

theorem piece_head {p v : List Char} (h : Piece p v) : p.head? ≠ some '"' := by
  cases h with
  | char h1 _ _ => simpa using h1
  | simple _ => simp
  | ascii _ _ _ _ => simp
  | unicode _ => simp
  | continued _ => simp

theorem hexDigit_ne {c : Char} {n : Nat} (h : HexDigit c n) : c ≠ '"' := by
  obtain ⟨hn, h⟩ := h
  have : n = 0 ∨ n = 1 ∨ n = 2 ∨ n = 3 ∨ n = 4 ∨ n = 5 ∨ n = 6 ∨ n = 7 ∨ n = 8 ∨ n = 9 ∨ n = 10 ∨ n = 11 ∨ n = 12 ∨ n = 13 ∨ n = 14 ∨ n = 15 := by omega
  rcases this with rfl | rfl | rfl | rfl | rfl | rfl | rfl | rfl | rfl | rfl | rfl | rfl | rfl | rfl | rfl | rfl <;> rcases h with rfl | rfl <;> decide

theorem piece_last {p v : List Char} (h : Piece p v) : p.getLast? ≠ some '"' ∨ (p = ['\\', '"'] ∧ v = ['"']) := by
  cases h with
  | char h1 _ _ => exact .inl (by simpa using h1)
  | @simple c v h =>
    by_cases hc : c = '"'
    · subst hc
      refine .inr ⟨rfl, ?_⟩
      simp at h
      rw [h]
    · exact .inl (by simpa using hc)
  | ascii _ _ hb _ => exact .inl (by simpa using hexDigit_ne hb)
  | unicode _ => exact .inl (by rw [List.getLast?_concat]; decide)
  | @continued s h =>
    refine .inl ?_
    rcases List.eq_nil_or_concat s with rfl | ⟨t, c, rfl⟩
    · decide
    · have hc := h c (by simp)
      rw [List.concat_eq_append, ← List.cons_append, ← List.cons_append, List.getLast?_concat]
      intro e
      cases e
      revert hc
      decide

theorem body_len {s v : List Char} (h : Body s v) : (s = v ∧ '"' ∉ s ∧ '\\' ∉ s) ∨ v.length < s.length := by
  induction h with
  | nil => exact .inl ⟨rfl, by simp, by simp⟩
  | append _ hp ih =>
    have hl := piece_len hp
    rcases ih with ⟨rfl, a, b⟩ | ih
    · rcases hl with ⟨rfl, c, d⟩ | hl
      · exact .inl ⟨rfl, by simp [a, c], by simp [b, d]⟩
      · exact .inr (by simp; exact hl)
    · refine .inr ?_
      rcases hl with ⟨rfl, _, _⟩ | hl <;> simp <;> omega

theorem body_head {s v : List Char} (h : Body s v) : s.head? ≠ some '"' := by
  induction h with
  | nil => simp
  | @append s v p w hb hp ih =>
    cases s with
    | nil => simpa using piece_head hp
    | cons a s => simpa using ih

theorem body_last {s v : List Char} (h : Body s v) : s.getLast? ≠ some '"' ∨ ∃ t u, s = t ++ ['\\', '"'] ∧ v = u ++ ['"'] := by
  cases h with
  | nil => exact .inl (by simp)
  | @append s v p w hb hp =>
    rcases piece_last hp with h | ⟨rfl, rfl⟩
    · refine .inl ?_
      rw [List.getLast?_append]
      cases hl : p.getLast? with
      | none => exact absurd (List.getLast?_eq_none_iff.mp hl) (piece_ne hp)
      | some c => rw [hl] at h; simpa using h
    · exact .inr ⟨s, v, rfl, rfl⟩

theorem body_le {s v : List Char} (h : Body s v) : v.length ≤ s.length := by
  rcases body_len h with ⟨rfl, _, _⟩ | h
  · exact Nat.le_refl _
  · omega

/-- Nothing is removed at the end of a suffix. -/
theorem trim_suffix {t x : List Char} (hx : Suffix x) : trimQuotes (t ++ x) = (t ++ x).dropWhile (· = '"') := by
  obtain ⟨h1, h2⟩ := hx
  rcases List.eq_nil_or_concat x with rfl | ⟨y, c, rfl⟩
  · exact absurd rfl h2
  have hc : c ≠ '"' := fun e => h1 (by simp [e])
  unfold trimQuotes
  have : ∃ z, (t ++ y.concat c).dropWhile (· = '"') = z ++ [c] := by
    rw [List.concat_eq_append, ← List.append_assoc]
    generalize t ++ y = u
    induction u with
    | nil => exact ⟨[], by simp [hc]⟩
    | cons a u ih =>
      rw [List.cons_append, List.dropWhile_cons]
      split
      · exact ih
      · exact ⟨a :: u, rfl⟩
  obtain ⟨z, hz⟩ := this
  rw [hz]
  simp [hc]

/-- The name is the value of the literal exactly if the literal is written as it is. -/
theorem trim_iff {token v : List Char} (h : StrLit token v) : trimQuotes token = v ↔ token = '"' :: v ++ ['"'] := by
  cases h with
  | @plain s v hb =>
    constructor
    · intro e
      rcases body_last hb with hl | ⟨t, u, rfl, rfl⟩
      · rw [trimQuotes_quoted (body_head hb) hl] at e
        rw [e]
      · exfalso
        have hh : (t ++ ['\\']).head? ≠ some '"' := by
          have := body_head hb
          cases t with
          | nil => decide
          | cons a t => simpa using this
        have : trimQuotes ('"' :: (t ++ ['\\', '"']) ++ ['"']) = t ++ ['\\'] := by
          have h2 : ('"' :: (t ++ ['\\', '"']) ++ ['"']).dropWhile (· = '"') = t ++ ['\\', '"', '"'] := by
            rw [List.cons_append, List.dropWhile_cons]
            simp only [decide_true, if_true]
            rw [dropWhile_neg]
            · simp
            · intro c hc
              cases t with
              | nil => simp at hc; rw [← hc]; decide
              | cons a t =>
                simp at hc hh
                rw [← hc]
                simpa using hh
          unfold trimQuotes
          rw [h2]
          simp
        rw [this] at e
        have := congrArg List.getLast? e
        simp at this
    · intro e
      have hs : s = v := by simpa using e
      rcases body_len hb with ⟨_, hq, _⟩ | hl
      · rw [← hs, trimQuotes_quoted (head_ne hq) (last_ne hq)]
      · rw [hs] at hl; omega
  | raw n hn =>
    constructor
    · intro e
      exfalso
      have h1 : ('r' :: List.replicate n '#' ++ '"' :: v ++ '"' :: List.replicate n '#').dropWhile (· = '"') =
          'r' :: List.replicate n '#' ++ '"' :: v ++ '"' :: List.replicate n '#' := by
        apply dropWhile_neg
        simp
      unfold trimQuotes at e
      rw [h1] at e
      cases n with
      | zero =>
        have hv : '"' ∉ v := by
          intro hc
          apply hn
          obtain ⟨a, b, rfl⟩ := List.append_of_mem hc
          exact ⟨a, b, by simp⟩
        have e2 : ('r' :: List.replicate 0 '#' ++ '"' :: v ++ '"' :: List.replicate 0 '#').reverse = '"' :: (v.reverse ++ ['"', 'r']) := by simp
        rw [e2, List.dropWhile_cons] at e
        simp only [decide_true, if_true] at e
        cases hvr : v.reverse with
        | nil =>
          have : v = [] := by simpa using hvr
          subst this
          simp at e
        | cons a t =>
          rw [dropWhile_neg (by
            intro c hc
            rw [hvr] at hc
            simp at hc
            have : c ∈ v := by
              have : a ∈ v.reverse := by rw [hvr]; simp
              rw [← hc]
              simpa using this
            simpa using fun e : c = '"' => hv (e ▸ this))] at e
          have := congrArg List.length e
          simp at this
          omega
      | succ k =>
        rw [dropWhile_neg (by
          intro c hc
          have e : 'r' :: List.replicate (k + 1) '#' ++ '"' :: v ++ '"' :: List.replicate (k + 1) '#' =
              ('r' :: List.replicate (k + 1) '#' ++ '"' :: v ++ '"' :: List.replicate k '#') ++ ['#'] := by
            rw [List.replicate_succ' (n := k)]
            simp
          rw [List.head?_reverse, e, List.getLast?_concat] at hc
          simp at hc
          rw [← hc]
          decide), List.reverse_reverse] at e
        have := congrArg List.length e
        simp at this
        omega
    · intro e
      simp at e
  | @plainSuffix s v x hb hx =>
    constructor
    · intro e
      exfalso
      rw [trim_suffix hx] at e
      have hle := body_le hb
      have h1 : ('"' :: s ++ ['"'] ++ x).dropWhile (· = '"') = (s ++ ['"'] ++ x).dropWhile (· = '"') := by
        rw [List.cons_append, List.cons_append, List.dropWhile_cons]
        simp
      rw [h1] at e
      cases s with
      | nil =>
        have hv : v = [] := List.length_eq_zero_iff.mp (by simpa using hle)
        rw [hv] at e
        simp only [List.nil_append, List.singleton_append, List.dropWhile_cons, decide_true, if_true] at e
        rw [dropWhile_neg (by
          intro c hc
          have : c ∈ x := List.mem_of_mem_head? hc
          simpa using fun e : c = '"' => hx.1 (e ▸ this))] at e
        exact hx.2 e
      | cons a s =>
        have ha := body_head hb
        rw [dropWhile_neg (by intro c hc; simp at hc ha; rw [← hc]; simpa using ha)] at e
        have := congrArg List.length e
        simp at this hle
        omega
    · intro e
      exfalso
      have hl := congrArg List.getLast? e
      rcases List.eq_nil_or_concat x with rfl | ⟨y, c, rfl⟩
      · exact hx.2 rfl
      rw [List.concat_eq_append, ← List.append_assoc, List.getLast?_concat, List.getLast?_concat] at hl
      simp at hl
      exact hx.1 (by simp [hl])
  | @rawSuffix v x n hn hx =>
    constructor
    · intro e
      exfalso
      rw [trim_suffix hx, dropWhile_neg (by simp)] at e
      have := congrArg List.length e
      simp at this
      omega
    · intro e
      simp at e

/-- A literal that is its value between two quotes has no quote in it. -/
theorem written {v : List Char} (h : StrLit ('"' :: v ++ ['"']) v) : '"' ∉ v := by
  generalize ht : '"' :: v ++ ['"'] = token at h
  cases h with
  | @plain s v hb =>
    have hs : s = v := by simpa using ht.symm
    rcases body_len hb with ⟨_, hq, _⟩ | hl
    · rwa [← hs]
    · rw [hs] at hl; omega
  | raw n _ => simp at ht
  | rawSuffix n _ _ => simp at ht
  | @plainSuffix s v x hb hx =>
    exfalso
    have hl := congrArg List.getLast? ht
    rcases List.eq_nil_or_concat x with rfl | ⟨y, c, rfl⟩
    · exact hx.2 rfl
    rw [List.concat_eq_append, ← List.append_assoc, List.getLast?_concat, List.getLast?_concat] at hl
    simp at hl
    exact hx.1 (by simp [← hl])

/-- Text without quotes, backslashes and carriage returns. -/
theorem body_text : ∀ {v : List Char}, (∀ c ∈ v.reverse, c ≠ '"' ∧ c ≠ '\\' ∧ c ≠ '\r') → Body v v := by
  intro v
  rw [← List.reverse_reverse v]
  generalize v.reverse = r
  rw [List.reverse_reverse]
  induction r with
  | nil => intro _; exact .nil
  | cons c r ih =>
    intro h
    rw [List.reverse_cons]
    obtain ⟨h1, h2, h3⟩ := h c (by simp)
    exact .append (ih fun c hc => h c (by simp [hc])) (.char h1 h2 h3)

/-! ## Theorems -/

/-- **C80, calls.** `window!("name()", args)` calls the function `name` of the window with the values of the arguments, and returns what
it returns; the same for `document!`. Missing: names written with escapes, and raw literals (`C80_other_literals_violated`); here the literal
is its value between two quotes. -/
theorem C80_call_partial {o : World W R} {mac : Option First → List Arg → Expansion} {thing : R} (h : Of o mac thing) (lossy : List UInt8 → String)
    (name : List Char) (ht : StrLit ('"' :: name ++ "()\"".toList) (name ++ "()".toList)) {args : List Arg} {js : List Js} (hj : PassedAll args js)
    {w w' : W} {rs : List R} (hb : Builds o w js rs w') :
    ∃ chain, mac (some (.str ('"' :: name ++ "()\"".toList))) args = .access chain ∧
      ∀ mem ptr size, Sent chain mem ptr size → (build chain).WF → Ts.JsSafe (build chain) → (build chain).wireLen < 2 ^ 32 →
        ∀ res w'', o.call w' thing (String.ofList name) rs = (res, w'') →
          (res = none → domAccess o lossy w mem ptr size = (.value .undefined, w'')) ∧
          ∀ r v, res = some r → Arrives (o.read w'' r) v → v.WF → Ts.JsSafe v → v.wireLen + 1 < 2 ^ 32 →
            domAccess o lossy w mem ptr size = (.value v, w'') := by
  obtain ⟨root, rfl, hr⟩ := of_expand h
  have hq : '"' ∉ name := by
    have := written (v := name ++ ['(', ')']) (by simpa using ht)
    simp at this
    exact this
  refine ⟨[.root root, .call (String.ofList name) (args.map Arg.from)], ?_, ?_⟩
  · have e : trimQuotes ('"' :: name ++ "()\"".toList) = name ++ ['(', ')'] := by
      have := trimQuotes_quoted (s := name ++ ['(', ')']) (head_ne (by simp [hq])) (last_ne (by simp [hq]))
      simpa using this
    simp only [expand, e]
    rw [show "()".toList = ['(', ')'] from rfl, (stripSuffix_some _ name).mpr rfl]
  · intro mem ptr size hm hw hs hl res w'' hc
    refine two hr lossy (by trivial) ?_ hm hw hs hl
    have := Does.call (o := o) (String.ofList name) _ js rs w w' thing (passed_all hj) hb
    rw [hc] at this
    exact this

/-- **C80, properties.** `window!("name")` reads the property `name` of the window and returns its value. -/
theorem C80_get_partial {o : World W R} {mac : Option First → List Arg → Expansion} {thing : R} (h : Of o mac thing) (lossy : List UInt8 → String)
    (name : List Char) (ht : StrLit ('"' :: name ++ ['"']) name) (hn : ¬ ∃ f, name = f ++ "()".toList) (w : W) :
    ∃ chain, mac (some (.str ('"' :: name ++ ['"']))) [] = .access chain ∧
      ∀ mem ptr size, Sent chain mem ptr size → (build chain).WF → Ts.JsSafe (build chain) → (build chain).wireLen < 2 ^ 32 →
        ∀ res w', o.get w thing (String.ofList name) = (res, w') →
          (res = none → domAccess o lossy w mem ptr size = (.value .undefined, w')) ∧
          ∀ r v, res = some r → Arrives (o.read w' r) v → v.WF → Ts.JsSafe v → v.wireLen + 1 < 2 ^ 32 →
            domAccess o lossy w mem ptr size = (.value v, w') := by
  obtain ⟨root, rfl, hr⟩ := of_expand h
  have hq := written ht
  refine ⟨[.root root, .get (String.ofList name)], ?_, ?_⟩
  · simp only [expand, trimQuotes_quoted (head_ne hq) (last_ne hq)]
    rw [show "()".toList = ['(', ')'] from rfl, (stripSuffix_none _).mpr hn]
    simp
  · intro mem ptr size hm hw hs hl res w' hc
    refine two hr lossy (by trivial) ?_ hm hw hs hl
    have := Does.get (o := o) (String.ofList name) w thing
    rw [hc] at this
    exact this

/-- **C80, mistakes.** A property with arguments, a first parameter that is not a string literal and no parameter at all are errors of the
compiler. -/
theorem C80_rejected {o : World W R} {mac : Option First → List Arg → Expansion} {thing : R} (h : Of o mac thing) (args : List Arg) :
    (∀ name, StrLit ('"' :: name ++ ['"']) name → (¬ ∃ f, name = f ++ "()".toList) → args ≠ [] → mac (some (.str ('"' :: name ++ ['"']))) args = .error) ∧
    mac (some .lit) args = .error ∧ mac (some .expr) args = .error ∧ mac none args = .panic := by
  obtain ⟨root, rfl, hr⟩ := of_expand h
  refine ⟨?_, rfl, rfl, rfl⟩
  intro name ht hn ha
  have hq := written ht
  simp only [expand, trimQuotes_quoted (head_ne hq) (last_ne hq)]
  rw [show "()".toList = ['(', ')'] from rfl, (stripSuffix_none _).mpr hn]
  simp [ha]

/-- **C80, violated: other literals.** A string literal that is not its value between two quotes - one with an escape or a suffix, or a raw one - is never
taken for its value: what the macro accesses is something else, if it accesses anything. -/
theorem C80_other_literals_violated {o : World W R} {mac : Option First → List Arg → Expansion} {thing : R} (h : Of o mac thing)
    {token v : List Char} (ht : StrLit token v) (hv : token ≠ '"' :: v ++ ['"']) (args : List Arg) (a : Access) (ha : Wanted v args a) :
    ∀ root, mac (some (.str token)) args ≠ .access [.root root, a] := by
  intro root' he
  obtain ⟨root, rfl, -⟩ := of_expand h
  have hne : trimQuotes token ≠ v := fun e => hv ((trim_iff ht).mp e)
  simp only [expand] at he
  rw [show "()".toList = ['(', ')'] from rfl] at he
  split at he
  · rename_i name hs
    have hs := (stripSuffix_some _ _).mp hs
    simp only [Expansion.access.injEq, List.cons.injEq, and_true] at he
    cases ha with
    | call name' e =>
      simp only [Access.call.injEq] at he
      have := congrArg String.toList he.2.1
      simp only [String.toList_ofList] at this
      rw [this, ← e] at hs
      exact hne hs
    | get _ _ => simp at he
  · split at he
    · simp only [Expansion.access.injEq, List.cons.injEq, and_true] at he
      cases ha with
      | call name' e => simp at he
      | get _ _ =>
        simp only [Access.get.injEq] at he
        have := congrArg String.toList he.2
        simp only [String.toList_ofList] at this
        exact hne this
    · simp at he

/-! ### Examples -/

/-- `window!("scrollTo()", 0, 640)` -/
example : window (some (.str "\"scrollTo()\"".toList)) [.i32 0, .u16 640] = .access [.root "window", .call "scrollTo" [.i32 0, .u32 640]] := by rfl
example : PassedAll [.i32 0, .u16 640] [.num (intToF64 0), .num (intToF64 640)] := .cons (.i32 0) (.cons (.u16 640) .nil)
example : document (some (.str "\"title\"".toList)) [] = .access [.root "document", .get "title"] := by rfl

example : StrLit ('"' :: "scrollTo".toList ++ "()\"".toList) ("scrollTo".toList ++ "()".toList) := .plain (s := "scrollTo()".toList) (body_text (by decide))

/-- `window!("title")` in a page. -/
example (lossy : List UInt8 → String) (m : MemWrite) (h : (build [.root "window", .get "title"]).toSnapshot = .ok m) :
    domAccess exampleWorld lossy "new" m.written 0 m.size = (.value (.str "new"), "new") := by
  obtain ⟨chain, he, hr⟩ := C80_get_partial (Of.window (o := exampleWorld)) lossy "title".toList (.plain (body_text (by decide))) (by
    rintro ⟨f, hf⟩
    have := congrArg List.getLast? hf
    simp at this) "new"
  have : chain = [.root "window", .get "title"] := by
    have e : window (some (.str ('"' :: "title".toList ++ ['"']))) [] = .access [.root "window", .get "title"] := by rfl
    rw [e] at he
    cases he
    rfl
  subst this
  exact (hr m.written 0 m.size ⟨m, [], h, by simp, Nat.zero_le _, rfl⟩ (by simp [build, Access.item, JsValue.WF, JsValue.WFL])
    (by simp only [build, Access.item, List.map, Ts.JsSafe, Ts.JsSafeL]; decide)
    (by simp only [build, Access.item, List.map, JsValue.wireLen, JsValue.wireLenL]; decide) (some (.str "new")) "new" rfl).2
      _ _ rfl (.str "new") (by simp [JsValue.WF]) (by simp only [Ts.JsSafe]; decide) (by simp only [JsValue.wireLen]; decide)

/-- `window!(r"title")` reads the property `r"title`. -/
example : StrLit "r\"title\"".toList "title".toList := .raw (v := "title".toList) 0 (by decide)
example : window (some (.str "r\"title\"".toList)) [] = .access [.root "window", .get "r\"title"] := by rfl

/-- `window!("title"x)` reads the property `title"x`. -/
example : StrLit "\"title\"x".toList "title".toList := .plainSuffix (s := "title".toList) (x := ['x']) (body_text (by decide)) ⟨by decide, by decide⟩
example : window (some (.str "\"title\"x".toList)) [] = .access [.root "window", .get "title\"x"] := by rfl

/-- `window!("a\tb")` reads a property with a backslash in its name. -/
example : StrLit "\"a\\tb\"".toList "a\tb".toList :=
  .plain (s := "a\\tb".toList)
    (.append (p := ['b']) (.append (p := ['\\', 't']) (.append (p := ['a']) .nil (.char (by decide) (by decide) (by decide))) (.simple (by decide))) (.char (by decide) (by decide) (by decide)))
example : window (some (.str "\"a\\tb\"".toList)) [] = .access [.root "window", .get "a\\tb"] := by rfl

end Verif.Host.WindowMacro
