import Verif.Json.TypedProps
/-!
# C72: a conversion fails exactly if the JSON does not fit, and says where

Sources: `serialize.rs` (`JsJsonContext`, `from_json`), `js_json_struct.rs` (`get_hashmap`, `get_property`) and the code that `AutoJsJson` generates
(`jsjson/*.rs`); they are modelled in `Json/Typed.lean`.

The name of the type, which is part of the message about a tuple of the wrong length (newtypes.rs:43), is left out in the model.
-/
namespace Verif.Json

open Verif.Codec (JsJson)

/-! ## Specification -/

/-- What is expected at a place: a value of a type; the fields of a tuple (of a struct, or of the variant `label`); the fields of a record. -/
inductive Want where
  | ty (t : Ty)
  | tuple (label : Option String) (ts : List Ty)
  | record (fs : List Field)

/-- What is expected below the name of a variant. A default is only for the fields of structs. -/
def content (name : String) : Fields → Want
  | .unit => .tuple (some name) []
  | .unnamed [t] => .ty t
  | .unnamed ts => .tuple (some name) ts
  | .named fs => .record (fs.map fun f => { f with default := none })

/-- Of the variants with data, `(name, fields)` is the first one whose name is in the object, with the value `x`. -/
def Chosen (variants : List (String × Fields)) (l : List (String × JsJson)) (name : String) (fields : Fields) (x : JsJson) : Prop :=
  ∃ pre post, variants = pre ++ (name, fields) :: post ∧ fields ≠ .unit ∧ l.lookup name = some x ∧ ∀ v ∈ pre, v.2 = .unit ∨ l.lookup v.1 = none

/-- The JSON is what is expected. -/
inductive Suits (env : Env) : Want → JsJson → Prop where
  | string {s} : Suits env (.ty .string) (.str s)
  | number {t bits} : t ∈ [Ty.u32, .i32, .u64, .i64] → Suits env (.ty t) (.num bits)
  | tru : Suits env (.ty .bool) .tru
  | fls : Suits env (.ty .bool) .fls
  | unit : Suits env (.ty .unit) (.obj [])
  | vec {t l} : (∀ x ∈ l, Suits env (.ty t) x) → Suits env (.ty (.vec t)) (.list l)
  | null {t} : Suits env (.ty (.option t)) .null
  | some {t j} : Suits env (.ty t) j → Suits env (.ty (.option t)) j
  | hashMap {t l} : (∀ e ∈ l, Suits env (.ty t) e.2) → Suits env (.ty (.hashMap t)) (.obj l)
  | btreeMap {t l} : (∀ e ∈ l, Suits env (.ty t) e.2) → Suits env (.ty (.btreeMap t)) (.obj l)
  | unitStruct {u j} : env u = .struct .unit ∨ env u = .struct (.unnamed []) → Suits env (.ty (.user u)) j
  | newtype {u t j} : env u = .struct (.unnamed [t]) → Suits env (.ty t) j → Suits env (.ty (.user u)) j
  | tupleStruct {u ts j} : env u = .struct (.unnamed ts) → 2 ≤ ts.length → Suits env (.tuple none ts) j → Suits env (.ty (.user u)) j
  | struct {u fs j} : env u = .struct (.named fs) → Suits env (.record fs) j → Suits env (.ty (.user u)) j
  | simple {u vs s} : env u = .enum vs → (s, Fields.unit) ∈ vs → Suits env (.ty (.user u)) (.str s)
  | variant {u vs l name fields x} : env u = .enum vs → Chosen vs l name fields x → Suits env (content name fields) x → Suits env (.ty (.user u)) (.obj l)
  | tuple {label ts l} : l.length = ts.length → (∀ (i : Nat) t x, ts[i]? = .some t → l[i]? = .some x → Suits env (.ty t) x) → Suits env (.tuple label ts) (.list l)
  | record {fs l} : (∀ f ∈ fs, f.default = none → (l.lookup f.name).isSome) →
      (∀ f ∈ fs, f.default = none → ∀ x, l.lookup f.name = .some x → Suits env (.ty f.ty) x) → Suits env (.record fs) (.obj l)
  | defaults {fs j} : (∀ f ∈ fs, f.default ≠ none) → Suits env (.record fs) j

/-- How a kind of JSON is called in a message. -/
def called : JsJson → String
  | .tru => "bool"
  | .fls => "bool"
  | .null => "null"
  | .str _ => "string"
  | .num _ => "number"
  | .list _ => "list"
  | .obj _ => "object"

/-- The value is not what is expected, by itself (not because of something inside of it), and this is said so. -/
inductive Wrong (env : Env) : Want → JsJson → List String → Prop where
  | string {y} : called y ≠ "string" → Wrong env (.ty .string) y ["string expected, received " ++ called y]
  | number {t s y} : (t, s) ∈ [(Ty.u32, "u32"), (.i32, "i32"), (.u64, "u64"), (.i64, "i64")] → called y ≠ "number" →
      Wrong env (.ty t) y ["number(" ++ s ++ ") expected, received " ++ called y]
  | bool {y} : called y ≠ "bool" → Wrong env (.ty .bool) y ["bool expected, received " ++ called y]
  | unit {y} : called y ≠ "object" → Wrong env (.ty .unit) y ["object expected, received " ++ called y]
  | notEmpty {l} : l ≠ [] → Wrong env (.ty .unit) (.obj l) ["Empty {} expected, inner content received"]
  | vec {t y} : called y ≠ "list" → Wrong env (.ty (.vec t)) y ["List expected, received " ++ called y]
  | hashMap {t y} : called y ≠ "object" → Wrong env (.ty (.hashMap t)) y ["object expected, received " ++ called y]
  | btreeMap {t y} : called y ≠ "object" → Wrong env (.ty (.btreeMap t)) y ["object expected, received " ++ called y]
  | enum {u vs y} : env u = .enum vs → called y ≠ "string" → called y ≠ "object" →
      Wrong env (.ty (.user u)) y ["Invalid type " ++ called y ++ " while decoding enum, expected string or object"]
  | simple {u vs s} : env u = .enum vs → (s, Fields.unit) ∉ vs → Wrong env (.ty (.user u)) (.str s) ["Invalid simple variant " ++ s]
  | compound {u vs l} : env u = .enum vs → (∀ v ∈ vs, v.2 = .unit ∨ l.lookup v.1 = none) →
      Wrong env (.ty (.user u)) (.obj l) ["Value not matched with any variant"]
  | structTuple {ts y} : called y ≠ "list" → Wrong env (.tuple none ts) y ["Invalid type " ++ called y ++ " while decoding newtype tuple, expected list"]
  | structLength {ts l} : l.length ≠ ts.length → Wrong env (.tuple none ts) (.list l)
      ["Wrong number of fields in tuple for newtype. Expected " ++ toString ts.length ++ ", got " ++ toString l.length]
  | variantTuple {name ts y} : called y ≠ "list" →
      Wrong env (.tuple (some name) ts) y ["Invalid type " ++ called y ++ " while decoding enum tuple, expected list"]
  | variantLength {name ts l} : l.length ≠ ts.length → Wrong env (.tuple (some name) ts) (.list l)
      ["Wrong unmber of fields in tuple for variant " ++ name ++ ". Expected " ++ toString ts.length ++ ", got " ++ toString l.length]
  | record {fs f y} : f ∈ fs → f.default = none → called y ≠ "object" → Wrong env (.record fs) y ["object expected, received " ++ called y]
  | missing {fs f l} : f ∈ fs → f.default = none → l.lookup f.name = none → Wrong env (.record fs) (.obj l) ["field: '" ++ f.name ++ "'", "missing field"]

/-- A step into a JSON value. -/
inductive Into where
  | item (i : Nat)
  | entry (key : String)

/-- How a step is written. -/
def Into.text : Into → String
  | .item i => toString i
  | .entry key => "field: '" ++ key ++ "'"

/-- The steps lead from a value to another one. -/
inductive Descends : JsJson → List Into → JsJson → Prop where
  | here {j} : Descends j [] j
  | item {l i x p y} : l[i]? = some x → Descends x p y → Descends (.list l) (.item i :: p) y
  | entry {l key x p y} : (key, x) ∈ l → Descends x p y → Descends (.obj l) (.entry key :: p) y

/-- Where `w` is expected there is `j`; then inside of it, where `w'` is expected, there is `y`. The steps that lead there are marked: those that the
messages have. The names of variants and the indexes of tuples are left out there. -/
inductive Place (env : Env) : Want → JsJson → List (Into × Bool) → Want → JsJson → Prop where
  | here {w j} : Place env w j [] w j
  | vec {t l i x p w y} : l[i]? = some x → Place env (.ty t) x p w y → Place env (.ty (.vec t)) (.list l) ((.item i, true) :: p) w y
  | some {t j p w y} : j ≠ .null → Place env (.ty t) j p w y → Place env (.ty (.option t)) j p w y
  | hashMap {t l key x p w y} : (key, x) ∈ l → Place env (.ty t) x p w y → Place env (.ty (.hashMap t)) (.obj l) ((.entry key, true) :: p) w y
  | btreeMap {t l key x p w y} : (key, x) ∈ l → Place env (.ty t) x p w y → Place env (.ty (.btreeMap t)) (.obj l) ((.entry key, true) :: p) w y
  | newtype {u t j p w y} : env u = .struct (.unnamed [t]) → Place env (.ty t) j p w y → Place env (.ty (.user u)) j p w y
  | tupleStruct {u ts j p w y} : env u = .struct (.unnamed ts) → 2 ≤ ts.length → Place env (.tuple none ts) j p w y → Place env (.ty (.user u)) j p w y
  | struct {u fs j p w y} : env u = .struct (.named fs) → Place env (.record fs) j p w y → Place env (.ty (.user u)) j p w y
  | variant {u vs l name fields x p w y} : env u = .enum vs → Chosen vs l name fields x → Place env (content name fields) x p w y →
      Place env (.ty (.user u)) (.obj l) ((.entry name, false) :: p) w y
  | tuple {label ts l i t x p w y} : ts[i]? = .some t → l[i]? = .some x → Place env (.ty t) x p w y →
      Place env (.tuple label ts) (.list l) ((.item i, false) :: p) w y
  | record {fs f l x p w y} : f ∈ fs → f.default = none → l.lookup f.name = .some x → Place env (.ty f.ty) x p w y →
      Place env (.record fs) (.obj l) ((.entry f.name, true) :: p) w y

/-- The steps that a message has. -/
def shown (p : List (Into × Bool)) : List String := (p.filter (·.2)).map (·.1.text)

/-- The types have a finite size, as the compiler demands: a newtype does not contain itself, unless there is a list or a map in between, or a struct or
an enum that makes an object or a list. -/
def Sized (env : Env) : Prop := ∃ rank : Ty → Nat, (∀ t, rank t < rank (.option t)) ∧ ∀ u t, env u = .struct (.unnamed [t]) → rank t < rank (.user u)

/-- Types without tuples, and without variants with data. -/
def Addressed (env : Env) : Prop := ∀ u,
  match env u with
  | .struct (.unnamed ts) => ts.length ≤ 1
  | .enum vs => ∀ v ∈ vs, v.2 = .unit
  | _ => True

/-! ## Proofs -/

theorem mapGet_lookup {α : Type} (k : String) : ∀ (l : List (String × α)), mapGet k l = l.lookup k
  | [] => rfl
  | (k', v) :: l => by
      have ih := mapGet_lookup k l
      unfold mapGet at ih ⊢
      rw [List.lookup_cons, List.find?_cons]
      by_cases h : k' = k
      · subst h; simp
      · have h' : (k == k') = false := by simpa using fun e : k = k' => h e.symm
        simp [h, h', ih]

theorem lookup_mem {α : Type} {k : String} {x : α} : ∀ {l : List (String × α)}, l.lookup k = some x → (k, x) ∈ l
  | [], h => by cases h
  | (k', v) :: l, h => by
      rw [List.lookup_cons] at h
      split at h
      · rename_i e; cases h; rw [beq_iff_eq.mp e]; exact List.mem_cons_self
      · exact List.mem_cons_of_mem _ (lookup_mem h)

theorem typename_called (j : JsJson) : typename j = called j := by cases j <;> rfl

theorem called_str {j : JsJson} (h : called j = "string") : ∃ s, j = .str s := by
  cases j <;> first | exact ⟨_, rfl⟩ | (simp [called] at h)

theorem called_obj {j : JsJson} (h : called j = "object") : ∃ s, j = .obj s := by
  cases j <;> first | exact ⟨_, rfl⟩ | (simp [called] at h)

theorem called_list {j : JsJson} (h : called j = "list") : ∃ s, j = .list s := by
  cases j <;> first | exact ⟨_, rfl⟩ | (simp [called] at h)

theorem Place.descends {env w j p w' y} (h : Place env w j p w' y) : Descends j (p.map (·.1)) y := by
  induction h with
  | here => exact .here
  | vec h _ ih => exact .item h ih
  | some _ _ ih => exact ih
  | hashMap h _ ih => exact .entry h ih
  | btreeMap h _ ih => exact .entry h ih
  | newtype _ _ ih => exact ih
  | tupleStruct _ _ _ ih => exact ih
  | struct _ _ ih => exact ih
  | variant _ hc _ ih =>
    obtain ⟨_, _, -, -, h, -⟩ := hc
    exact .entry (lookup_mem h) ih
  | tuple _ h _ ih => exact .item h ih
  | record _ _ h _ ih => exact .entry (lookup_mem h) ih

/-- The first one is unique. -/
theorem Chosen.unique {vs l name fields x name' fields' x'} (h : Chosen vs l name fields x) (h' : Chosen vs l name' fields' x') :
    name = name' ∧ fields = fields' ∧ x = x' := by
  obtain ⟨pre, post, rfl, h1, h2, h3⟩ := h
  obtain ⟨pre', post', e, h1', h2', h3'⟩ := h'
  have key : ∀ {pre pre' : List (String × Fields)} {a a' : String × Fields} {post post'}, pre ++ a :: post = pre' ++ a' :: post' →
      (∀ v ∈ pre, v ≠ a') → (∀ v ∈ pre', v ≠ a) → a = a' := by
    intro pre
    induction pre with
    | nil =>
      intro pre' a a' post post' e _ hb
      cases pre' with
      | nil => cases e; rfl
      | cons b _ => cases e; exact absurd rfl (hb a List.mem_cons_self)
    | cons c pre ih =>
      intro pre' a a' post post' e ha hb
      cases pre' with
      | nil => cases e; exact absurd rfl (ha _ List.mem_cons_self)
      | cons b pre' =>
        simp only [List.cons_append, List.cons.injEq] at e
        exact ih e.2 (fun v hv => ha v (List.mem_cons_of_mem _ hv)) (fun v hv => hb v (List.mem_cons_of_mem _ hv))
  have : (name, fields) = (name', fields') := by
    refine key e (fun v hv e => ?_) (fun v hv e => ?_)
    · subst e
      rcases h3 _ hv with h | h
      · exact h1' h
      · rw [h2'] at h; cases h
    · subst e
      rcases h3' _ hv with h | h
      · exact h1 h
      · rw [h2] at h; cases h
  cases this
  rw [h2] at h2'
  cases h2'
  exact ⟨rfl, rfl, rfl⟩

/-- What is wrong does not fit. -/
theorem Wrong.not_suits {env w y r} (h : Wrong env w y r) : ¬ Suits env w y := by
  intro hs
  cases h with
  | string h => cases hs <;> simp_all [called]
  | number h1 h => cases hs <;> simp_all [called]
  | bool h => cases hs <;> simp_all [called]
  | unit h => cases hs <;> simp_all [called]
  | notEmpty h => cases hs <;> simp_all [called]
  | vec h => cases hs <;> simp_all [called]
  | hashMap h => cases hs <;> simp_all [called]
  | btreeMap h => cases hs <;> simp_all [called]
  | enum h h1 h2 => cases hs <;> simp_all [called]
  | simple h h1 => cases hs <;> simp_all [called]
  | compound h h1 =>
    cases hs <;> try (simp_all; done)
    rename_i e hc
    rw [h] at e; cases e
    obtain ⟨pre, post, rfl, h2, h3, -⟩ := hc
    rcases h1 _ (List.mem_append_right _ List.mem_cons_self) with h4 | h4
    · exact h2 h4
    · rw [h3] at h4; cases h4
  | structTuple h => cases hs <;> simp_all [called]
  | structLength h => cases hs <;> simp_all [called]
  | variantTuple h => cases hs <;> simp_all [called]
  | variantLength h => cases hs <;> simp_all [called]
  | record h1 h2 h =>
    cases hs with
    | record => simp [called] at h
    | defaults hd => exact hd _ h1 h2
  | missing h1 h2 h =>
    cases hs with
    | record hd _ =>
      have := hd _ h1 h2
      rw [h] at this; cases this
    | defaults hd => exact hd _ h1 h2

/-- If something inside does not fit, then nor does the whole. -/
theorem Place.not_suits {env w j p w' y} (h : Place env w j p w' y) : ¬ Suits env w' y → ¬ Suits env w j := by
  induction h with
  | here => exact id
  | vec h _ ih =>
    intro hn hs
    cases hs <;> try (simp_all; done)
    rename_i hs
    exact ih hn (hs _ (List.mem_of_getElem? h))
  | some hnull _ ih =>
    intro hn hs
    cases hs <;> try (simp_all; done)
  | hashMap h _ ih =>
    intro hn hs
    cases hs <;> try (simp_all; done)
    rename_i hs
    exact ih hn (hs _ h)
  | btreeMap h _ ih =>
    intro hn hs
    cases hs <;> try (simp_all; done)
    rename_i hs
    exact ih hn (hs _ h)
  | newtype h _ ih =>
    intro hn hs
    cases hs <;> simp_all
  | tupleStruct h h2 _ ih =>
    intro hn hs
    cases hs <;> simp_all
    all_goals (subst_vars; simp at h2)
  | struct h _ ih =>
    intro hn hs
    cases hs <;> simp_all
  | variant h hc _ ih =>
    intro hn hs
    cases hs <;> try (simp_all; done)
    rename_i hs e hc'
    rw [h] at e; cases e
    obtain ⟨rfl, rfl, rfl⟩ := hc.unique hc'
    exact ih hn hs
  | tuple h1 h2 _ ih =>
    intro hn hs
    cases hs with
    | tuple _ hs => exact ih hn (hs _ _ _ h1 h2)
  | record h1 h2 h3 _ ih =>
    intro hn hs
    cases hs with
    | record _ hs => exact ih hn (hs _ h1 h2 _ h3)
    | defaults hd => exact absurd h2 (hd _ h1)

theorem Place.shown_all {env w j p w' y} (ha : Addressed env) (h : Place env w j p w' y) : (∃ t, w = .ty t) ∨ (∃ fs, w = .record fs) →
    shown p = p.map (·.1.text) := by
  induction h with
  | here => intro _; rfl
  | vec _ _ ih => intro _; simp [shown] at ih ⊢; exact ih
  | some _ _ ih => intro _; exact ih (.inl ⟨_, rfl⟩)
  | hashMap _ _ ih => intro _; simp [shown] at ih ⊢; exact ih
  | btreeMap _ _ ih => intro _; simp [shown] at ih ⊢; exact ih
  | newtype _ _ ih => intro _; exact ih (.inl ⟨_, rfl⟩)
  | @tupleStruct u _ _ _ _ _ h h2 _ _ =>
    have := ha u
    rw [h] at this
    intro _
    exact absurd h2 (by simp only at this; omega)
  | struct _ _ ih => intro _; exact ih (.inr ⟨_, rfl⟩)
  | @variant u _ _ _ _ _ _ _ _ h hc _ _ =>
    have := ha u
    rw [h] at this
    obtain ⟨pre, post, rfl, h2, -⟩ := hc
    exact absurd (this _ (List.mem_append_right _ List.mem_cons_self)) h2
  | tuple => rintro (⟨_, e⟩ | ⟨_, e⟩) <;> cases e
  | record _ _ _ _ ih => intro _; simp [shown] at ih ⊢; exact ih

/-! ### Failing conversions -/

/-- What an error says, relative to the context of the place. -/
def Blamed (env : Env) (w : Want) (j : JsJson) (ctx c : Ctx) : Prop :=
  ∃ p w' y r, Place env w j p w' y ∧ Wrong env w' y r ∧ c = r.reverse ++ (shown p).reverse ++ ctx

theorem Blamed.wrong {env w j ctx r} (h : Wrong env w j r) : Blamed env w j ctx (r.reverse ++ ctx) := ⟨[], w, j, r, .here, h, by simp [shown]⟩

theorem Blamed.wrong1 {env w j ctx m} (h : Wrong env w j [m]) : Blamed env w j ctx (m :: ctx) := Blamed.wrong h

theorem Res.bind_err {α β : Type} {r : Res α} {f : α → Res β} {c} (h : r.bind f = .err c) : r = .err c ∨ ∃ a, r = .ok a ∧ f a = .err c := by
  cases r with
  | ok a => exact .inr ⟨a, rfl, h⟩
  | err c' => cases h; exact .inl rfl
  | panic => cases h
  | fuel => cases h

theorem Res.map_err {α β : Type} {r : Res α} {f : α → β} {c} (h : r.map f = .err c) : r = .err c := by
  cases r <;> first | (cases h; rfl) | cases h

theorem Res.bind_ok {α β : Type} {r : Res α} {f : α → Res β} {b} (h : r.bind f = .ok b) : ∃ a, r = .ok a ∧ f a = .ok b := by
  cases r with
  | ok a => exact ⟨a, rfl, h⟩
  | err c' => cases h
  | panic => cases h
  | fuel => cases h

theorem Res.map_ok {α β : Type} {r : Res α} {f : α → β} {b} (h : r.map f = .ok b) : ∃ a, r = .ok a ∧ f a = b := by
  cases r with
  | ok a => cases h; exact ⟨a, rfl, rfl⟩
  | err c' => cases h
  | panic => cases h
  | fuel => cases h

section
variable {env : Env} {n : Nat}

theorem vec_err {f : Ctx → JsJson → Res Val} {ctx c} : ∀ {l : List JsJson} {i}, decodeVec f ctx i l = .err c →
    ∃ k x, l[k]? = some x ∧ f (toString (i + k) :: ctx) x = .err c
  | [], _, h => by cases h
  | x :: l, i, h => by
      rcases Res.bind_err h with h | ⟨v, -, h⟩
      · exact ⟨0, x, rfl, h⟩
      · rcases Res.bind_err h with h | ⟨_, -, h⟩
        · obtain ⟨k, y, h1, h2⟩ := vec_err h
          exact ⟨k + 1, y, h1, by rw [← h2]; congr 2; simp [Nat.add_comm, Nat.add_left_comm]⟩
        · cases h

theorem map_err {f : Ctx → JsJson → Res Val} {ctx c} : ∀ {l : List (String × JsJson)} {acc}, decodeMap f ctx acc l = .err c →
    ∃ k x, (k, x) ∈ l ∧ f (("field: '" ++ k ++ "'") :: ctx) x = .err c
  | [], _, h => by cases h
  | (k, x) :: l, acc, h => by
      rcases Res.bind_err h with h | ⟨v, -, h⟩
      · exact ⟨k, x, List.mem_cons_self, h⟩
      · obtain ⟨k', y, h1, h2⟩ := map_err h
        exact ⟨k', y, List.mem_cons_of_mem _ h1, h2⟩

theorem tuple_err {f : Ty → JsJson → Res Val} {c} : ∀ {ts : List Ty} {l : List JsJson}, l.length = ts.length → decodeTuple f ts l.reverse = .err c →
    ∃ (i : Nat) (t : Ty) (x : JsJson), ts[i]? = some t ∧ l[i]? = some x ∧ f t x = .err c
  | [], _, _, h => by cases h
  | t :: ts, [], h, _ => by cases h
  | t :: ts, x :: l, hl, h => by
      simp only [decodeTuple, List.reverse_cons, List.getLast?_append, List.getLast?_singleton, Option.some_or, List.dropLast_concat] at h
      rcases Res.bind_err h with h | ⟨v, -, h⟩
      · exact ⟨0, t, x, rfl, rfl, h⟩
      · rcases Res.bind_err h with h | ⟨_, -, h⟩
        · obtain ⟨i, t', y, h1, h2, h3⟩ := tuple_err (by simpa using hl) h
          exact ⟨i + 1, t', y, h1, h2, h3⟩
        · cases h

theorem lookup_filter {k k' : String} (h : k ≠ k') (l : List (String × JsJson)) : (l.filter (·.1 ≠ k')).lookup k = l.lookup k := by
  rw [← mapGet_lookup, ← mapGet_lookup]
  exact mapGet_filter h

/-- What a record finds of an object: `l` and what is left of it agree for the fields that are still to come. -/
theorem named_err {f : Ctx → Ty → JsJson → Res Val} {ctx c} : ∀ {fs : List Field} {l : List (String × JsJson)}, (fs.map (·.name)).Nodup →
    decodeNamed f ctx true fs (.obj l) = .err c →
    ∃ fl ∈ fs, fl.default = none ∧ (l.lookup fl.name = none ∧ c = "missing field" :: ("field: '" ++ fl.name ++ "'") :: ctx ∨
      ∃ x, l.lookup fl.name = some x ∧ f (("field: '" ++ fl.name ++ "'") :: ctx) fl.ty x = .err c)
  | [], _, _, h => by cases h
  | fl :: fs, l, hn, h => by
      simp only [List.map_cons, List.nodup_cons] at hn
      simp only [decodeNamed, getProperty, mapGet_lookup] at h
      cases hl : l.lookup fl.name with
      | none =>
        simp only [hl] at h
        rcases Res.bind_err h with h | ⟨v, -, h⟩
        · cases hd : fl.default with
          | some d => simp [hd, orDefault] at h
          | none =>
            simp [hd, orDefault] at h
            exact ⟨fl, List.mem_cons_self, hd, .inl ⟨hl, h.symm⟩⟩
        · rcases Res.bind_err h with h | ⟨_, -, h⟩
          · obtain ⟨g, h1, h2⟩ := named_err hn.2 h
            exact ⟨g, List.mem_cons_of_mem _ h1, h2⟩
          · cases h
      | some x =>
        simp only [hl] at h
        rcases Res.bind_err h with h | ⟨v, -, h⟩
        · cases hd : fl.default with
          | some d =>
            simp only [hd, if_true] at h
            cases hr : f (("field: '" ++ fl.name ++ "'") :: ctx) fl.ty x <;> simp [hr, orDefault] at h
          | none =>
            simp [hd, orDefault] at h
            exact ⟨fl, List.mem_cons_self, hd, .inr ⟨x, hl, h⟩⟩
        · rcases Res.bind_err h with h | ⟨_, -, h⟩
          · obtain ⟨g, h1, h2, h3⟩ := named_err hn.2 h
            have : g.name ≠ fl.name := fun e => hn.1 (by rw [← e]; exact List.mem_map_of_mem h1)
            rw [lookup_filter this] at h3
            exact ⟨g, List.mem_cons_of_mem _ h1, h2, h3⟩
          · cases h

theorem named_err_other {f : Ctx → Ty → JsJson → Res Val} {ctx c j} (hj : called j ≠ "object") : ∀ {fs : List Field},
    decodeNamed f ctx true fs j = .err c → (∃ fl ∈ fs, fl.default = none) ∧ c = ("object expected, received " ++ called j) :: ctx
  | [], h => by cases h
  | fl :: fs, h => by
      have e : getProperty (fun c j => f c fl.ty j) ctx fl.name j = (j, .err (("object expected, received " ++ called j) :: ctx)) := by
        cases j <;> first | rfl | exact absurd rfl hj
      simp only [decodeNamed, e] at h
      rcases Res.bind_err h with h | ⟨v, -, h⟩
      · cases hd : fl.default with
        | some d => simp [hd, orDefault] at h
        | none =>
          simp [hd, orDefault] at h
          exact ⟨⟨fl, List.mem_cons_self, hd⟩, h.symm⟩
      · rcases Res.bind_err h with h | ⟨_, -, h⟩
        · obtain ⟨⟨g, h1, h2⟩, h3⟩ := named_err_other hj h
          exact ⟨⟨g, List.mem_cons_of_mem _ h1, h2⟩, h3⟩
        · cases h

/-- The fields of a variant are decoded as those of a struct without defaults. -/
theorem named_false {f : Ctx → Ty → JsJson → Res Val} {ctx} : ∀ (fs : List Field) (j : JsJson),
    decodeNamed f ctx false fs j = decodeNamed f ctx true (fs.map fun f => { f with default := none }) j
  | [], _ => rfl
  | fl :: fs, j => by
      simp only [decodeNamed, List.map_cons, named_false fs]
      rfl

theorem record_err {f : Ctx → Ty → JsJson → Res Val} (hf : ∀ ctx t j c, f ctx t j = .err c → Blamed env (.ty t) j ctx c)
    {fs : List Field} (hn : (fs.map (·.name)).Nodup) {ctx j c} (h : decodeNamed f ctx true fs j = .err c) : Blamed env (.record fs) j ctx c := by
  by_cases hj : called j = "object"
  · obtain ⟨l, rfl⟩ := called_obj hj
    obtain ⟨fl, h1, h2, ⟨h3, rfl⟩ | ⟨x, h3, h4⟩⟩ := named_err hn h
    · exact Blamed.wrong (.missing h1 h2 h3)
    · obtain ⟨p, w', y, r, hp, hw, rfl⟩ := hf _ _ _ _ h4
      exact ⟨_, w', y, r, .record h1 h2 h3 hp, hw, by simp [shown, Into.text]⟩
  · obtain ⟨⟨fl, h1, h2⟩, rfl⟩ := named_err_other hj h
    exact Blamed.wrong1 (.record h1 h2 hj)

theorem tupleWant_err {f : Ty → JsJson → Res Val} {ctx} (hf : ∀ t j c, f t j = .err c → Blamed env (.ty t) j ctx c)
    {label ts l c} (hl : l.length = ts.length) (h : decodeTuple f ts l.reverse = .err c) : Blamed env (.tuple label ts) (.list l) ctx c := by
  obtain ⟨i, t, x, h1, h2, h3⟩ := tuple_err hl h
  obtain ⟨p, w', y, r, hp, hw, rfl⟩ := hf _ _ _ h3
  exact ⟨_, w', y, r, .tuple h1 h2 hp, hw, by simp [shown]⟩

theorem simple_err {ctx s c} : ∀ {vs : List (String × Fields)}, decodeSimple ctx s vs = .err c →
    (s, Fields.unit) ∉ vs ∧ c = ("Invalid simple variant " ++ s) :: ctx
  | [], h => by cases h; exact ⟨by simp, rfl⟩
  | (name, .unit) :: vs, h => by
      simp only [decodeSimple] at h
      split at h
      · cases h
      · rename_i hne
        obtain ⟨h1, h2⟩ := simple_err h
        refine ⟨fun hm => ?_, h2⟩
        rcases List.mem_cons.mp hm with e | hm
        · cases e; exact hne rfl
        · exact h1 hm
  | (name, .unnamed ts) :: vs, h => by
      obtain ⟨h1, h2⟩ := simple_err (vs := vs) h
      exact ⟨fun hm => (List.mem_cons.mp hm).elim (fun e => by cases e) h1, h2⟩
  | (name, .named fs) :: vs, h => by
      obtain ⟨h1, h2⟩ := simple_err (vs := vs) h
      exact ⟨fun hm => (List.mem_cons.mp hm).elim (fun e => by cases e) h1, h2⟩

theorem simple_ok {ctx s v} : ∀ {vs : List (String × Fields)}, decodeSimple ctx s vs = .ok v → (s, Fields.unit) ∈ vs
  | [], h => by cases h
  | (name, .unit) :: vs, h => by
      simp only [decodeSimple] at h
      split at h
      · rename_i e; rw [e]; exact List.mem_cons_self
      · exact List.mem_cons_of_mem _ (simple_ok h)
  | (name, .unnamed ts) :: vs, h => List.mem_cons_of_mem _ (simple_ok (vs := vs) h)
  | (name, .named fs) :: vs, h => List.mem_cons_of_mem _ (simple_ok (vs := vs) h)

theorem Chosen.skip {vs l name fields x v} (h : Chosen vs l name fields x) (hv : v.2 = .unit ∨ l.lookup v.1 = none) :
    Chosen (v :: vs) l name fields x := by
  obtain ⟨pre, post, rfl, h1, h2, h3⟩ := h
  exact ⟨v :: pre, post, rfl, h1, h2, fun w hw => (List.mem_cons.mp hw).elim (fun e => e ▸ hv) (h3 w)⟩

theorem Chosen.first {vs l name fields x} (h1 : fields ≠ .unit) (h2 : l.lookup name = some x) : Chosen ((name, fields) :: vs) l name fields x :=
  ⟨[], vs, rfl, h1, h2, fun w hw => by cases hw⟩

/-- What is done for a variant. -/
def contentRes (f : Ctx → Ty → JsJson → Res Val) (ctx : Ctx) (name : String) (fields : Fields) (value : JsJson) : Res Val :=
  decodeCompound f ctx [(name, value)] [(name, fields)]

/-- The result for an object: that of the first variant whose name it has. -/
theorem compound_cases {f : Ctx → Ty → JsJson → Res Val} {ctx l} : ∀ (vs : List (String × Fields)),
    ((∀ v ∈ vs, v.2 = .unit ∨ l.lookup v.1 = none) ∧ decodeCompound f ctx l vs = .err ("Value not matched with any variant" :: ctx)) ∨
    ∃ name fields x, Chosen vs l name fields x ∧ decodeCompound f ctx l vs = contentRes f ctx name fields x
  | [] => .inl ⟨(fun v hv => by cases hv), rfl⟩
  | (name, fields) :: vs => by
      have skip : (fields = .unit ∨ l.lookup name = none) → decodeCompound f ctx l ((name, fields) :: vs) = decodeCompound f ctx l vs := by
        intro h
        cases fields with
        | unit => rfl
        | unnamed ts =>
          have h := h.resolve_left (by simp)
          simp only [decodeCompound, mapGet_lookup, h]
        | named fs =>
          have h := h.resolve_left (by simp)
          simp only [decodeCompound, mapGet_lookup, h]
      by_cases hs : fields = .unit ∨ l.lookup name = none
      · rw [skip hs]
        rcases compound_cases vs with ⟨h1, h2⟩ | ⟨nm, fl, x, h1, h2⟩
        · exact .inl ⟨fun v hv => (List.mem_cons.mp hv).elim (fun e => by rw [e]; exact hs) (h1 v), h2⟩
        · exact .inr ⟨nm, fl, x, h1.skip hs, h2⟩
      · simp only [not_or] at hs
        obtain ⟨x, hx⟩ := Option.ne_none_iff_exists'.mp hs.2
        refine .inr ⟨name, fields, x, .first hs.1 hx, ?_⟩
        have e : List.lookup name [(name, x)] = some x := by simp
        cases fields with
        | unit => exact absurd rfl hs.1
        | unnamed ts => simp only [contentRes, decodeCompound, mapGet_lookup, hx, e]
        | named fs => simp only [contentRes, decodeCompound, mapGet_lookup, hx, e]

/-- The names of the fields of a definition are different (the compiler says so). -/
def Names (env : Env) : Prop := ∀ u,
  match env u with
  | .struct (.named fs) => (fs.map (·.name)).Nodup
  | .enum vs => ∀ v ∈ vs, ∀ fs, v.2 = .named fs → (fs.map (·.name)).Nodup
  | _ => True

theorem wf_names {env : Env} (h : WfEnv env) : Names env := by
  intro u
  have := h u
  cases he : env u with
  | struct f =>
    rw [he] at this
    cases f with
    | named fs => exact this.2 fs rfl
    | _ => trivial
  | enum vs =>
    rw [he] at this
    exact fun v hv fs e => (this.2 v hv).2 fs e

theorem content_err {f : Ctx → Ty → JsJson → Res Val} {ctx} (hf : ∀ ctx t j c, f ctx t j = .err c → Blamed env (.ty t) j ctx c) {name fields x c}
    (hu : fields ≠ .unit) (hn : ∀ fs, fields = .named fs → (fs.map (·.name)).Nodup) (h : contentRes f ctx name fields x = .err c) :
    Blamed env (content name fields) x ctx c := by
  have e : List.lookup name [(name, x)] = some x := by simp
  cases fields with
  | unit => exact absurd rfl hu
  | unnamed ts =>
    simp only [contentRes, decodeCompound, mapGet_lookup, e] at h
    match ts with
    | [t] => exact hf _ _ _ _ (Res.map_err h)
    | [] =>
      cases x with
      | list l =>
        simp only at h
        split at h
        · rename_i hl; cases h; exact Blamed.wrong1 (.variantLength hl)
        · rename_i hl; exact tupleWant_err (hf ctx) (Decidable.not_not.mp hl) (Res.map_err h)
      | _ => cases h; exact Blamed.wrong1 (.variantTuple (by simp [called]))
    | t :: t' :: ts =>
      cases x with
      | list l =>
        simp only at h
        split at h
        · rename_i hl; cases h; exact Blamed.wrong1 (.variantLength hl)
        · rename_i hl; exact tupleWant_err (hf ctx) (Decidable.not_not.mp hl) (Res.map_err h)
      | _ => cases h; exact Blamed.wrong1 (.variantTuple (by simp [called]))
  | named fs =>
    simp only [contentRes, decodeCompound, mapGet_lookup, e, named_false] at h
    refine record_err hf ?_ (Res.map_err h)
    rw [List.map_map]
    exact hn fs rfl

theorem fromJson_err (hn : Names env) : ∀ (n : Nat) (ctx : Ctx) (t : Ty) (j : JsJson) (c : Ctx), fromJson env n ctx t j = .err c →
    Blamed env (.ty t) j ctx c
  | 0, _, _, _, _, h => by cases h
  | n + 1, ctx, t, j, c, h => by
      have ih := fromJson_err hn n
      have int : ∀ {lo hi nm}, (t, nm) ∈ [(Ty.u32, "u32"), (.i32, "i32"), (.u64, "u64"), (.i64, "i64")] → decodeInt lo hi nm ctx j = .err c →
          Blamed env (.ty t) j ctx c := by
        intro lo hi nm hm h
        cases j with
        | num b => cases h
        | _ => cases h; exact Blamed.wrong1 (.number hm (by simp [called]))
      have obj : ∀ {α : Type} {k : List (String × JsJson) → Res α}, (getHashmap ctx j).bind k = .err c →
          (called j ≠ "object" ∧ c = ("object expected, received " ++ called j) :: ctx) ∨ ∃ l, j = .obj l ∧ k l = .err c := by
        intro α k h
        cases j with
        | obj l => exact .inr ⟨l, rfl, h⟩
        | _ => cases h; exact .inl ⟨by simp [called], rfl⟩
      cases t with
      | string =>
        cases j with
        | str s => cases h
        | _ => cases h; exact Blamed.wrong1 (.string (by simp [called]))
      | u64 => exact int (by simp) h
      | i64 => exact int (by simp) h
      | u32 => exact int (by simp) h
      | i32 => exact int (by simp) h
      | bool =>
        cases j with
        | tru => cases h
        | fls => cases h
        | _ => cases h; exact Blamed.wrong1 (.bool (by simp [called]))
      | unit =>
        rcases obj h with ⟨h1, rfl⟩ | ⟨l, rfl, h'⟩
        · exact Blamed.wrong1 (.unit h1)
        · clear h
          rename' h' => h
          split at h
          · cases h
          · rename_i he; cases h; exact Blamed.wrong1 (.notEmpty (by simpa using he))
      | vec t =>
        cases j with
        | list l =>
          obtain ⟨k, x, h1, h2⟩ := vec_err (Res.map_err h)
          obtain ⟨p, w', y, r, hp, hw, rfl⟩ := ih _ _ _ _ h2
          exact ⟨_, w', y, r, .vec h1 hp, hw, by simp [shown, Into.text]⟩
        | _ => cases h; exact Blamed.wrong1 (.vec (by simp [called]))
      | option t =>
        have : j ≠ .null ∧ fromJson env n ctx t j = .err c := by
          cases j with
          | null => cases h
          | _ => exact ⟨by simp, Res.map_err h⟩
        obtain ⟨p, w', y, r, hp, hw, rfl⟩ := ih _ _ _ _ this.2
        exact ⟨_, w', y, r, .some this.1 hp, hw, rfl⟩
      | hashMap t =>
        rcases obj h with ⟨h1, rfl⟩ | ⟨l, rfl, h⟩
        · exact Blamed.wrong1 (.hashMap h1)
        · obtain ⟨k, x, h1, h2⟩ := map_err (Res.map_err h)
          obtain ⟨p, w', y, r, hp, hw, rfl⟩ := ih _ _ _ _ h2
          exact ⟨_, w', y, r, .hashMap h1 hp, hw, by simp [shown, Into.text]⟩
      | btreeMap t =>
        rcases obj h with ⟨h1, rfl⟩ | ⟨l, rfl, h⟩
        · exact Blamed.wrong1 (.btreeMap h1)
        · obtain ⟨k, x, h1, h2⟩ := map_err (Res.map_err h)
          obtain ⟨p, w', y, r, hp, hw, rfl⟩ := ih _ _ _ _ h2
          exact ⟨_, w', y, r, .btreeMap h1 hp, hw, by simp [shown, Into.text]⟩
      | user u =>
        have hnu := hn u
        simp only [fromJson] at h
        cases he : env u with
        | struct f =>
          rw [he] at h hnu
          cases f with
          | unit => cases h
          | named fs =>
            obtain ⟨p, w', y, r, hp, hw, rfl⟩ := record_err ih hnu (Res.map_err h)
            exact ⟨_, w', y, r, .struct he hp, hw, rfl⟩
          | unnamed ts =>
            match ts with
            | [] => cases h
            | [t] =>
              obtain ⟨p, w', y, r, hp, hw, rfl⟩ := ih _ _ _ _ (Res.map_err h)
              exact ⟨_, w', y, r, .newtype he hp, hw, rfl⟩
            | t :: t' :: ts =>
              have : Blamed env (.tuple none (t :: t' :: ts)) j ctx c := by
                cases j with
                | list l =>
                  simp only at h
                  split at h
                  · rename_i hl; cases h; exact Blamed.wrong1 (.structLength hl)
                  · rename_i hl; exact tupleWant_err (ih ctx) (Decidable.not_not.mp hl) (Res.map_err h)
                | _ => cases h; exact Blamed.wrong1 (.structTuple (by simp [called]))
              obtain ⟨p, w', y, r, hp, hw, rfl⟩ := this
              exact ⟨_, w', y, r, .tupleStruct he (by simp) hp, hw, rfl⟩
        | enum vs =>
          rw [he] at h hnu
          cases j with
          | str s =>
            obtain ⟨h1, rfl⟩ := simple_err h
            exact Blamed.wrong1 (.simple he h1)
          | obj l =>
            rcases compound_cases (f := fromJson env n) (ctx := ctx) (l := l) vs with ⟨h1, h2⟩ | ⟨nm, fl, x, h1, h2⟩
            · simp only [h2] at h
              cases h
              exact Blamed.wrong1 (.compound he h1)
            · simp only [h2] at h
              have hm : (nm, fl) ∈ vs ∧ fl ≠ .unit := by
                obtain ⟨pre, post, rfl, h3, -⟩ := h1
                exact ⟨List.mem_append_right _ List.mem_cons_self, h3⟩
              obtain ⟨p, w', y, r, hp, hw, rfl⟩ := content_err ih hm.2 (hnu _ hm.1) h
              exact ⟨_, w', y, r, .variant he h1 hp, hw, by simp [shown]⟩
          | _ => cases h; exact Blamed.wrong1 (.enum he (by simp [called]) (by simp [called]))

/-! ### Conversions that succeed -/

theorem vec_ok {f : Ctx → JsJson → Res Val} {ctx} : ∀ {l : List JsJson} {i vs}, decodeVec f ctx i l = .ok vs → ∀ x ∈ l, ∃ ctx v, f ctx x = .ok v
  | [], _, _, _, x, hx => by cases hx
  | y :: l, i, vs, h, x, hx => by
      obtain ⟨v, h1, h⟩ := Res.bind_ok h
      obtain ⟨_, h2, -⟩ := Res.bind_ok h
      rcases List.mem_cons.mp hx with rfl | hx
      · exact ⟨_, v, h1⟩
      · exact vec_ok h2 x hx

theorem map_ok {f : Ctx → JsJson → Res Val} {ctx} : ∀ {l : List (String × JsJson)} {acc vs}, decodeMap f ctx acc l = .ok vs →
    ∀ e ∈ l, ∃ ctx v, f ctx e.2 = .ok v
  | [], _, _, _, x, hx => by cases hx
  | y :: l, i, vs, h, x, hx => by
      obtain ⟨v, h1, h⟩ := Res.bind_ok h
      rcases List.mem_cons.mp hx with rfl | hx
      · exact ⟨_, v, h1⟩
      · exact map_ok h x hx

theorem tuple_ok {f : Ty → JsJson → Res Val} : ∀ {ts : List Ty} {l : List JsJson} {vs}, l.length = ts.length → decodeTuple f ts l.reverse = .ok vs →
    ∀ (i : Nat) (t : Ty) (x : JsJson), ts[i]? = some t → l[i]? = some x → ∃ v, f t x = .ok v
  | [], _, _, _, _, i, t, x, h, _ => by simp at h
  | t :: ts, [], _, h, _, _, _, _, _, _ => by cases h
  | t :: ts, x :: l, vs, hl, h, i, t', x', h1, h2 => by
      simp only [decodeTuple, List.reverse_cons, List.getLast?_append, List.getLast?_singleton, Option.some_or, List.dropLast_concat] at h
      obtain ⟨v, h3, h⟩ := Res.bind_ok h
      obtain ⟨_, h4, -⟩ := Res.bind_ok h
      cases i with
      | zero => cases h1; cases h2; exact ⟨v, h3⟩
      | succ i => exact tuple_ok (by simpa using hl) h4 i t' x' h1 h2

theorem named_ok {f : Ctx → Ty → JsJson → Res Val} {ctx} : ∀ {fs : List Field} {l : List (String × JsJson)} {vs}, (fs.map (·.name)).Nodup →
    decodeNamed f ctx true fs (.obj l) = .ok vs → ∀ fl ∈ fs, fl.default = none → ∃ x, l.lookup fl.name = some x ∧ ∃ ctx v, f ctx fl.ty x = .ok v
  | [], _, _, _, _, fl, hm, _ => by cases hm
  | g :: fs, l, vs, hn, h, fl, hm, hd => by
      simp only [List.map_cons, List.nodup_cons] at hn
      simp only [decodeNamed, getProperty, mapGet_lookup] at h
      cases hl : l.lookup g.name with
      | none =>
        simp only [hl] at h
        obtain ⟨v, h1, h⟩ := Res.bind_ok h
        obtain ⟨_, h2, -⟩ := Res.bind_ok h
        rcases List.mem_cons.mp hm with rfl | hm
        · simp [hd, orDefault] at h1
        · exact named_ok hn.2 h2 fl hm hd
      | some x =>
        simp only [hl] at h
        obtain ⟨v, h1, h⟩ := Res.bind_ok h
        obtain ⟨_, h2, -⟩ := Res.bind_ok h
        rcases List.mem_cons.mp hm with rfl | hm
        · simp [hd, orDefault] at h1
          exact ⟨x, hl, _, v, h1⟩
        · obtain ⟨y, h3, h4⟩ := named_ok hn.2 h2 fl hm hd
          have : fl.name ≠ g.name := fun e => hn.1 (by rw [← e]; exact List.mem_map_of_mem hm)
          rw [lookup_filter this] at h3
          exact ⟨y, h3, h4⟩

theorem named_ok_other {f : Ctx → Ty → JsJson → Res Val} {ctx j} (hj : called j ≠ "object") : ∀ {fs : List Field} {vs},
    decodeNamed f ctx true fs j = .ok vs → ∀ fl ∈ fs, fl.default ≠ none
  | [], _, _, fl, hm => by cases hm
  | g :: fs, vs, h, fl, hm => by
      have e : getProperty (fun c j => f c g.ty j) ctx g.name j = (j, .err (("object expected, received " ++ called j) :: ctx)) := by
        cases j <;> first | rfl | exact absurd rfl hj
      simp only [decodeNamed, e] at h
      obtain ⟨v, h1, h⟩ := Res.bind_ok h
      obtain ⟨_, h2, -⟩ := Res.bind_ok h
      rcases List.mem_cons.mp hm with rfl | hm
      · intro hd
        simp [hd, orDefault] at h1
      · exact named_ok_other hj h2 fl hm

theorem record_ok {f : Ctx → Ty → JsJson → Res Val} (hf : ∀ ctx t j v, f ctx t j = .ok v → Suits env (.ty t) j)
    {fs : List Field} (hn : (fs.map (·.name)).Nodup) {ctx j vs} (h : decodeNamed f ctx true fs j = .ok vs) : Suits env (.record fs) j := by
  by_cases hj : called j = "object"
  · obtain ⟨l, rfl⟩ := called_obj hj
    have := named_ok hn h
    refine .record (fun fl hm hd => ?_) (fun fl hm hd x hx => ?_)
    · obtain ⟨x, hx, -⟩ := this fl hm hd
      rw [hx]; rfl
    · obtain ⟨y, hy, _, _, h1⟩ := this fl hm hd
      rw [hx] at hy; cases hy
      exact hf _ _ _ _ h1
  · exact .defaults (named_ok_other hj h)

theorem content_ok {f : Ctx → Ty → JsJson → Res Val} {ctx} (hf : ∀ ctx t j v, f ctx t j = .ok v → Suits env (.ty t) j) {name fields x v}
    (hu : fields ≠ .unit) (hn : ∀ fs, fields = .named fs → (fs.map (·.name)).Nodup) (h : contentRes f ctx name fields x = .ok v) :
    Suits env (content name fields) x := by
  have e : List.lookup name [(name, x)] = some x := by simp
  cases fields with
  | unit => exact absurd rfl hu
  | unnamed ts =>
    simp only [contentRes, decodeCompound, mapGet_lookup, e] at h
    match ts with
    | [t] =>
      obtain ⟨_, h, -⟩ := Res.map_ok h
      exact hf _ _ _ _ h
    | [] =>
      cases x with
      | list l =>
        simp only at h
        split at h
        · cases h
        · rename_i hl
          obtain ⟨_, h, -⟩ := Res.map_ok h
          refine .tuple (Decidable.not_not.mp hl) fun i t x h1 h2 => ?_
          obtain ⟨_, h⟩ := tuple_ok (Decidable.not_not.mp hl) h i t x h1 h2
          exact hf _ _ _ _ h
      | _ => cases h
    | t :: t' :: ts =>
      cases x with
      | list l =>
        simp only at h
        split at h
        · cases h
        · rename_i hl
          obtain ⟨_, h, -⟩ := Res.map_ok h
          refine .tuple (Decidable.not_not.mp hl) fun i t x h1 h2 => ?_
          obtain ⟨_, h⟩ := tuple_ok (Decidable.not_not.mp hl) h i t x h1 h2
          exact hf _ _ _ _ h
      | _ => cases h
  | named fs =>
    simp only [contentRes, decodeCompound, mapGet_lookup, e, named_false] at h
    obtain ⟨_, h, -⟩ := Res.map_ok h
    refine record_ok hf ?_ h
    rw [List.map_map]
    exact hn fs rfl

theorem fromJson_suits (hn : Names env) : ∀ (n : Nat) (ctx : Ctx) (t : Ty) (j : JsJson) (v : Val), fromJson env n ctx t j = .ok v → Suits env (.ty t) j
  | 0, _, _, _, _, h => by cases h
  | n + 1, ctx, t, j, v, h => by
      have ih := fromJson_suits hn n
      have int : ∀ {lo hi nm}, t ∈ [Ty.u32, .i32, .u64, .i64] → decodeInt lo hi nm ctx j = .ok v → Suits env (.ty t) j := by
        intro lo hi nm hm h
        cases j with
        | num b => exact .number hm
        | _ => cases h
      have obj : ∀ {α : Type} {k : List (String × JsJson) → Res α} {b}, (getHashmap ctx j).bind k = .ok b → ∃ l, j = .obj l ∧ k l = .ok b := by
        intro α k b h
        cases j with
        | obj l => exact ⟨l, rfl, h⟩
        | _ => cases h
      cases t with
      | string =>
        cases j with
        | str s => exact .string
        | _ => cases h
      | u64 => exact int (by simp) h
      | i64 => exact int (by simp) h
      | u32 => exact int (by simp) h
      | i32 => exact int (by simp) h
      | bool =>
        cases j with
        | tru => exact .tru
        | fls => exact .fls
        | _ => cases h
      | unit =>
        obtain ⟨l, rfl, h'⟩ := obj h
        clear h
        split at h'
        · rename_i he
          rw [List.isEmpty_iff.mp he]
          exact .unit
        · cases h'
      | vec t =>
        cases j with
        | list l =>
          obtain ⟨_, h, -⟩ := Res.map_ok h
          refine .vec fun x hx => ?_
          obtain ⟨_, _, h⟩ := vec_ok h x hx
          exact ih _ _ _ _ h
        | _ => cases h
      | option t =>
        cases j with
        | null => exact .null
        | _ =>
          obtain ⟨_, h, -⟩ := Res.map_ok h
          exact .some (ih _ _ _ _ h)
      | hashMap t =>
        obtain ⟨l, rfl, h⟩ := obj h
        obtain ⟨_, h, -⟩ := Res.map_ok h
        refine .hashMap fun x hx => ?_
        obtain ⟨_, _, h⟩ := map_ok h x hx
        exact ih _ _ _ _ h
      | btreeMap t =>
        obtain ⟨l, rfl, h⟩ := obj h
        obtain ⟨_, h, -⟩ := Res.map_ok h
        refine .btreeMap fun x hx => ?_
        obtain ⟨_, _, h⟩ := map_ok h x hx
        exact ih _ _ _ _ h
      | user u =>
        have hnu := hn u
        simp only [fromJson] at h
        cases he : env u with
        | struct f =>
          rw [he] at h hnu
          cases f with
          | unit => exact .unitStruct (.inl he)
          | named fs =>
            obtain ⟨_, h, -⟩ := Res.map_ok h
            exact .struct he (record_ok ih hnu h)
          | unnamed ts =>
            match ts with
            | [] => exact .unitStruct (.inr he)
            | [t] =>
              obtain ⟨_, h, -⟩ := Res.map_ok h
              exact .newtype he (ih _ _ _ _ h)
            | t :: t' :: ts =>
              refine .tupleStruct he (by simp) ?_
              cases j with
              | list l =>
                simp only at h
                split at h
                · cases h
                · rename_i hl
                  obtain ⟨_, h, -⟩ := Res.map_ok h
                  refine .tuple (Decidable.not_not.mp hl) fun i t x h1 h2 => ?_
                  obtain ⟨_, h⟩ := tuple_ok (Decidable.not_not.mp hl) h i t x h1 h2
                  exact ih _ _ _ _ h
              | _ => cases h
        | enum vs =>
          rw [he] at h hnu
          cases j with
          | str s => exact .simple he (simple_ok h)
          | obj l =>
            rcases compound_cases (f := fromJson env n) (ctx := ctx) (l := l) vs with ⟨h1, h2⟩ | ⟨nm, fl, x, h1, h2⟩
            · simp only [h2] at h
              cases h
            · simp only [h2] at h
              have hm : (nm, fl) ∈ vs ∧ fl ≠ .unit := by
                obtain ⟨pre, post, rfl, h3, -⟩ := h1
                exact ⟨List.mem_append_right _ List.mem_cons_self, h3⟩
              exact .variant he h1 (content_ok ih hm.2 (hnu _ hm.1) h)
          | _ => cases h

/-! ### Every conversion ends -/

theorem Res.bind_fuel {α β : Type} {r : Res α} {f : α → Res β} (h : r.bind f = .fuel) : r = .fuel ∨ ∃ a, f a = .fuel := by
  cases r with
  | ok a => exact .inr ⟨a, h⟩
  | err c' => cases h
  | panic => cases h
  | fuel => exact .inl rfl

theorem Res.map_fuel {α β : Type} {r : Res α} {f : α → β} (h : r.map f = .fuel) : r = .fuel := by
  cases r <;> first | rfl | cases h

theorem vec_fuel {f : Ctx → JsJson → Res Val} {ctx} : ∀ {l : List JsJson} {i}, decodeVec f ctx i l = .fuel → ∃ x ∈ l, ∃ ctx, f ctx x = .fuel
  | [], _, h => by cases h
  | y :: l, i, h => by
      rcases Res.bind_fuel h with h | ⟨_, h⟩
      · exact ⟨y, List.mem_cons_self, _, h⟩
      · rcases Res.bind_fuel h with h | ⟨_, h⟩
        · obtain ⟨x, h1, h2⟩ := vec_fuel h
          exact ⟨x, List.mem_cons_of_mem _ h1, h2⟩
        · cases h

theorem map_fuel {f : Ctx → JsJson → Res Val} {ctx} : ∀ {l : List (String × JsJson)} {acc}, decodeMap f ctx acc l = .fuel →
    ∃ e ∈ l, ∃ ctx, f ctx e.2 = .fuel
  | [], _, h => by cases h
  | y :: l, i, h => by
      rcases Res.bind_fuel h with h | ⟨_, h⟩
      · exact ⟨y, List.mem_cons_self, _, h⟩
      · obtain ⟨x, h1, h2⟩ := map_fuel h
        exact ⟨x, List.mem_cons_of_mem _ h1, h2⟩

theorem tuple_fuel {f : Ty → JsJson → Res Val} : ∀ {ts : List Ty} {l : List JsJson}, decodeTuple f ts l = .fuel → ∃ t ∈ ts, ∃ x ∈ l, f t x = .fuel
  | [], _, h => by cases h
  | t :: ts, l, h => by
      simp only [decodeTuple] at h
      cases hl : l.getLast? with
      | none => simp [hl] at h
      | some x =>
        simp only [hl] at h
        rcases Res.bind_fuel h with h | ⟨_, h⟩
        · exact ⟨t, List.mem_cons_self, x, List.mem_of_getLast? hl, h⟩
        · rcases Res.bind_fuel h with h | ⟨_, h⟩
          · obtain ⟨t', h1, x, h2, h3⟩ := tuple_fuel h
            exact ⟨t', List.mem_cons_of_mem _ h1, x, (List.dropLast_subset _) h2, h3⟩
          · cases h

theorem orDefault_fuel {d r} (h : orDefault d r = .fuel) : r = .fuel := by
  cases d <;> cases r <;> simp_all [orDefault]

theorem named_fuel {f : Ctx → Ty → JsJson → Res Val} {ctx b} : ∀ {fs : List Field} {j : JsJson}, decodeNamed f ctx b fs j = .fuel →
    ∃ l, j = .obj l ∧ ∃ fl ∈ fs, ∃ e ∈ l, ∃ ctx, f ctx fl.ty e.2 = .fuel
  | [], _, h => by cases h
  | g :: fs, j, h => by
      by_cases hj : called j = "object"
      · obtain ⟨l, rfl⟩ := called_obj hj
        simp only [decodeNamed, getProperty, mapGet_lookup] at h
        cases hl : l.lookup g.name with
        | none =>
          simp only [hl] at h
          rcases Res.bind_fuel h with h | ⟨_, h⟩
          · have := orDefault_fuel h
            cases this
          · rcases Res.bind_fuel h with h | ⟨_, h⟩
            · obtain ⟨l', e, fl, h1, h2⟩ := named_fuel h
              exact ⟨l', e, fl, List.mem_cons_of_mem _ h1, h2⟩
            · cases h
        | some x =>
          simp only [hl] at h
          rcases Res.bind_fuel h with h | ⟨_, h⟩
          · exact ⟨l, rfl, g, List.mem_cons_self, _, lookup_mem hl, _, orDefault_fuel h⟩
          · rcases Res.bind_fuel h with h | ⟨_, h⟩
            · obtain ⟨l', e, fl, h1, y, h2, h3⟩ := named_fuel h
              cases e
              exact ⟨l, rfl, fl, List.mem_cons_of_mem _ h1, y, (List.mem_filter.mp h2).1, h3⟩
            · cases h
      · have e : getProperty (fun c j => f c g.ty j) ctx g.name j = (j, .err (("object expected, received " ++ called j) :: ctx)) := by
          cases j <;> first | rfl | exact absurd rfl hj
        simp only [decodeNamed, e] at h
        rcases Res.bind_fuel h with h | ⟨_, h⟩
        · have := orDefault_fuel h
          cases this
        · rcases Res.bind_fuel h with h | ⟨_, h⟩
          · obtain ⟨l', e, fl, h1, h2⟩ := named_fuel h
            exact ⟨l', e, fl, List.mem_cons_of_mem _ h1, h2⟩
          · cases h

/-- The parts of a value. -/
def parts : JsJson → List JsJson
  | .list l => l
  | .obj l => l.map (·.2)
  | _ => []

theorem parts_lt {j x : JsJson} (h : x ∈ parts j) : sizeOf x < sizeOf j := by
  cases j with
  | list l =>
    have := List.sizeOf_lt_of_mem (show x ∈ l from h)
    simp only [JsJson.list.sizeOf_spec]
    omega
  | obj l =>
    obtain ⟨e, he, rfl⟩ := List.mem_map.mp h
    have := List.sizeOf_lt_of_mem he
    obtain ⟨k, x⟩ := e
    simp only [Prod.mk.sizeOf_spec] at this
    simp only [JsJson.obj.sizeOf_spec]
    omega
  | _ => cases h

theorem bound_all {α : Type} {P : α → Nat → Prop} : ∀ {l : List α}, (∀ x ∈ l, ∃ N, ∀ n ≥ N, P x n) → ∃ N, ∀ x ∈ l, ∀ n ≥ N, P x n
  | [], _ => ⟨0, fun x hx => by cases hx⟩
  | a :: l, h => by
      obtain ⟨N, hN⟩ := h a List.mem_cons_self
      obtain ⟨M, hM⟩ := bound_all fun x hx => h x (List.mem_cons_of_mem _ hx)
      refine ⟨max N M, fun x hx n hn => ?_⟩
      rcases List.mem_cons.mp hx with rfl | hx
      · exact hN n (Nat.le_trans (Nat.le_max_left _ _) hn)
      · exact hM x hx n (Nat.le_trans (Nat.le_max_right _ _) hn)

/-- The types in a definition. -/
def inner : Def → List Ty
  | .struct f => f.types
  | .enum vs => vs.flatMap (·.2.types)

theorem content_fuel {f : Ctx → Ty → JsJson → Res Val} {ctx name fields x} (h : contentRes f ctx name fields x = .fuel) :
    ∃ t ∈ fields.types, ∃ y ∈ x :: parts x, ∃ ctx, f ctx t y = .fuel := by
  have e : List.lookup name [(name, x)] = some x := by simp
  cases fields with
  | unit => cases h
  | unnamed ts =>
    simp only [contentRes, decodeCompound, mapGet_lookup, e] at h
    match ts with
    | [t] => exact ⟨t, by simp [Fields.types], x, List.mem_cons_self, ctx, Res.map_fuel h⟩
    | [] =>
      cases x with
      | list l =>
        simp only at h
        split at h
        · cases h
        · cases h
      | _ => cases h
    | t :: t' :: ts =>
      cases x with
      | list l =>
        simp only at h
        split at h
        · cases h
        · obtain ⟨t, h1, y, h2, h3⟩ := tuple_fuel (Res.map_fuel h)
          exact ⟨t, h1, y, List.mem_cons_of_mem _ (by simpa [parts] using h2), ctx, h3⟩
      | _ => cases h
  | named fs =>
    simp only [contentRes, decodeCompound, mapGet_lookup, e] at h
    obtain ⟨l, rfl, fl, h1, y, h2, c, h3⟩ := named_fuel (Res.map_fuel h)
    exact ⟨fl.ty, List.mem_map_of_mem h1, y.2, List.mem_cons_of_mem _ (List.mem_map_of_mem h2), c, h3⟩

/-- A conversion that does not end has a part that does not end. -/
theorem fromJson_fuel {n ctx t j} (h : fromJson env (n + 1) ctx t j = .fuel) :
    (∃ t', t = .option t' ∧ ∃ ctx, fromJson env n ctx t' j = .fuel) ∨
    (∃ u t', t = .user u ∧ env u = .struct (.unnamed [t']) ∧ ∃ ctx, fromJson env n ctx t' j = .fuel) ∨
    (∃ t', (t = .vec t' ∨ t = .hashMap t' ∨ t = .btreeMap t' ∨ ∃ u, t = .user u ∧ t' ∈ inner (env u)) ∧
      ∃ y ∈ parts j ++ (parts j).flatMap parts, ∃ ctx, fromJson env n ctx t' y = .fuel) := by
  have int : ∀ {lo hi nm}, decodeInt lo hi nm ctx j ≠ .fuel := by
    intro lo hi nm h
    cases j <;> cases h
  have obj : ∀ {α : Type} {k : List (String × JsJson) → Res α}, (getHashmap ctx j).bind k = .fuel → ∃ l, j = .obj l ∧ k l = .fuel := by
    intro α k h
    cases j with
    | obj l => exact ⟨l, rfl, h⟩
    | _ => cases h
  cases t with
  | string => cases j <;> cases h
  | u64 => exact absurd h int
  | i64 => exact absurd h int
  | u32 => exact absurd h int
  | i32 => exact absurd h int
  | bool => cases j <;> cases h
  | unit =>
    obtain ⟨l, rfl, h'⟩ := obj h
    clear h
    split at h' <;> cases h'
  | vec t =>
    cases j with
    | list l =>
      obtain ⟨x, hx, c, h⟩ := vec_fuel (Res.map_fuel h)
      exact .inr (.inr ⟨t, .inl rfl, x, List.mem_append_left _ hx, c, h⟩)
    | _ => cases h
  | option t =>
    cases j with
    | null => cases h
    | _ => exact .inl ⟨t, rfl, ctx, Res.map_fuel h⟩
  | hashMap t =>
    obtain ⟨l, rfl, h⟩ := obj h
    obtain ⟨x, hx, c, h⟩ := map_fuel (Res.map_fuel h)
    exact .inr (.inr ⟨t, .inr (.inl rfl), x.2, List.mem_append_left _ (List.mem_map_of_mem hx), c, h⟩)
  | btreeMap t =>
    obtain ⟨l, rfl, h⟩ := obj h
    obtain ⟨x, hx, c, h⟩ := map_fuel (Res.map_fuel h)
    exact .inr (.inr ⟨t, .inr (.inr (.inl rfl)), x.2, List.mem_append_left _ (List.mem_map_of_mem hx), c, h⟩)
  | user u =>
    simp only [fromJson] at h
    cases he : env u with
    | struct f =>
      rw [he] at h
      cases f with
      | unit => cases h
      | named fs =>
        obtain ⟨l, rfl, fl, h1, y, h2, c, h3⟩ := named_fuel (Res.map_fuel h)
        exact .inr (.inr ⟨fl.ty, .inr (.inr (.inr ⟨u, rfl, by rw [he]; exact List.mem_map_of_mem h1⟩)), y.2,
          List.mem_append_left _ (List.mem_map_of_mem h2), c, h3⟩)
      | unnamed ts =>
        match ts with
        | [] => cases h
        | [t] => exact .inr (.inl ⟨u, t, rfl, he, ctx, Res.map_fuel h⟩)
        | t :: t' :: ts =>
          cases j with
          | list l =>
            simp only at h
            split at h
            · cases h
            · obtain ⟨t, h1, y, h2, h3⟩ := tuple_fuel (Res.map_fuel h)
              exact .inr (.inr ⟨t, .inr (.inr (.inr ⟨u, rfl, by rw [he]; exact h1⟩)), y, List.mem_append_left _ (by simpa [parts] using h2), ctx, h3⟩)
          | _ => cases h
    | enum vs =>
      rw [he] at h
      cases j with
      | str s =>
        have : ∀ {vs : List (String × Fields)}, decodeSimple ctx s vs ≠ .fuel := by
          intro vs
          induction vs with
          | nil => intro h; cases h
          | cons v vs ih =>
            obtain ⟨nm, f⟩ := v
            cases f with
            | unit =>
              simp only [decodeSimple]
              split
              · intro h; cases h
              · exact ih
            | _ => exact ih
        exact absurd h this
      | obj l =>
        rcases compound_cases (f := fromJson env n) (ctx := ctx) (l := l) vs with ⟨h1, h2⟩ | ⟨nm, fl, x, h1, h2⟩
        · simp only [h2] at h
          cases h
        · simp only [h2] at h
          have hm : (nm, fl) ∈ vs ∧ (nm, x) ∈ l := by
            obtain ⟨pre, post, rfl, h3, h4, -⟩ := h1
            exact ⟨List.mem_append_right _ List.mem_cons_self, lookup_mem h4⟩
          have hx : x ∈ parts (.obj l) := List.mem_map_of_mem (f := (·.2)) hm.2
          obtain ⟨t, h3, y, h4, c, h5⟩ := content_fuel h
          refine .inr (.inr ⟨t, .inr (.inr (.inr ⟨u, rfl, ?_⟩)), y, ?_, c, h5⟩)
          · rw [he]
            exact List.mem_flatMap.mpr ⟨_, hm.1, h3⟩
          · rcases List.mem_cons.mp h4 with rfl | h4
            · exact List.mem_append_left _ hx
            · exact List.mem_append_right _ (List.mem_flatMap.mpr ⟨x, hx, h4⟩)
      | _ => cases h

/-- The types whose values can be parts of a value. -/
def below (env : Env) : Ty → List Ty
  | .vec t => [t]
  | .hashMap t => [t]
  | .btreeMap t => [t]
  | .user u => inner (env u)
  | _ => []

theorem total (hs : Sized env) (s : Nat) : ∀ (j : JsJson), sizeOf j ≤ s → ∀ t, ∃ N, ∀ n ≥ N, ∀ ctx, fromJson env n ctx t j ≠ .fuel := by
  obtain ⟨rank, ho, hu⟩ := hs
  induction s with
  | zero => intro j hj; cases j <;> simp at hj
  | succ s ih =>
    intro j hj
    have small : ∀ y ∈ parts j ++ (parts j).flatMap parts, sizeOf y ≤ s := by
      intro y hy
      rcases List.mem_append.mp hy with hy | hy
      · have := parts_lt hy; omega
      · obtain ⟨x, hx, hy⟩ := List.mem_flatMap.mp hy
        have := parts_lt hx
        have := parts_lt hy
        omega
    have hb : ∀ t, ∃ N, ∀ t' ∈ below env t, ∀ n ≥ N, ∀ y ∈ parts j ++ (parts j).flatMap parts, ∀ ctx, fromJson env n ctx t' y ≠ .fuel := by
      intro t
      refine bound_all (P := fun t' n => ∀ y ∈ parts j ++ (parts j).flatMap parts, ∀ ctx, fromJson env n ctx t' y ≠ .fuel) fun t' _ => ?_
      obtain ⟨N, hN⟩ := bound_all (P := fun y n => ∀ ctx, fromJson env n ctx t' y ≠ .fuel) fun y hy => ih y (small y hy) t'
      exact ⟨N, fun n hn y hy => hN y hy n hn⟩
    suffices ∀ r t, rank t ≤ r → ∃ N, ∀ n ≥ N, ∀ ctx, fromJson env n ctx t j ≠ .fuel from fun t => this _ t (Nat.le_refl _)
    intro r
    induction r with
    | zero =>
      intro t hr
      obtain ⟨N, hN⟩ := hb t
      refine ⟨N + 1, fun n hn ctx h => ?_⟩
      obtain ⟨n, rfl⟩ : ∃ m, n = m + 1 := ⟨n - 1, by omega⟩
      rcases fromJson_fuel h with ⟨t', rfl, _⟩ | ⟨u, t', rfl, he, _⟩ | ⟨t', ht, y, hy, c, h⟩
      · have := ho t'; omega
      · have := hu u t' he; omega
      · refine hN t' ?_ n (by omega) y hy c h
        rcases ht with rfl | rfl | rfl | ⟨u, rfl, ht⟩
        · simp [below]
        · simp [below]
        · simp [below]
        · exact ht
    | succ r ihr =>
      intro t hr
      obtain ⟨N, hN⟩ := hb t
      have hM : ∃ M, ∀ t', (t = .option t' ∨ ∃ u, t = .user u ∧ env u = .struct (.unnamed [t'])) → ∀ n ≥ M, ∀ ctx, fromJson env n ctx t' j ≠ .fuel := by
        cases t with
        | option t =>
          obtain ⟨M, hM⟩ := ihr t (by have := ho t; omega)
          refine ⟨M, fun t' h => ?_⟩
          rcases h with h | ⟨u, h, _⟩
          · cases h; exact hM
          · cases h
        | user u =>
          by_cases hx : ∃ t, env u = .struct (.unnamed [t])
          · obtain ⟨t, he⟩ := hx
            obtain ⟨M, hM⟩ := ihr t (by have := hu u t he; omega)
            refine ⟨M, fun t' h => ?_⟩
            rcases h with h | ⟨u, h, h'⟩
            · cases h
            · cases h; rw [he] at h'; cases h'; exact hM
          · refine ⟨0, fun t' h => ?_⟩
            rcases h with h | ⟨u, h, h'⟩
            · cases h
            · cases h; exact absurd ⟨_, h'⟩ hx
        | _ =>
          refine ⟨0, fun t' h => ?_⟩
          rcases h with h | ⟨u, h, _⟩ <;> cases h
      obtain ⟨M, hM⟩ := hM
      refine ⟨max N M + 1, fun n hn ctx h => ?_⟩
      obtain ⟨n, rfl⟩ : ∃ m, n = m + 1 := ⟨n - 1, by omega⟩
      have hn1 : N ≤ n := by have := Nat.le_max_left N M; omega
      have hn2 : M ≤ n := by have := Nat.le_max_right N M; omega
      rcases fromJson_fuel h with ⟨t', rfl, c, h⟩ | ⟨u, t', rfl, he, c, h⟩ | ⟨t', ht, y, hy, c, h⟩
      · exact hM t' (.inl rfl) n hn2 c h
      · exact hM t' (.inr ⟨u, rfl, he⟩) n hn2 c h
      · refine hN t' ?_ n hn1 y hy c h
        rcases ht with rfl | rfl | rfl | ⟨u, rfl, ht⟩
        · simp [below]
        · simp [below]
        · simp [below]
        · exact ht

end

/-! ## C72 -/

/-- **C72.** Every conversion ends, with a value or an error. -/
theorem C72_answers {env : Env} (hs : Sized env) (t : Ty) (j : JsJson) :
    ∃ N, ∀ n ≥ N, ∀ ctx, (∃ v, fromJson env n ctx t j = .ok v) ∨ ∃ c, fromJson env n ctx t j = .err c := by
  obtain ⟨N, hN⟩ := total hs _ j (Nat.le_refl _) t
  refine ⟨N, fun n hn ctx => ?_⟩
  have h1 := hN n hn ctx
  have h2 := fromJson_ne_panic (env := env) n ctx t j
  cases h : fromJson env n ctx t j with
  | ok v => exact .inl ⟨v, rfl⟩
  | err c => exact .inr ⟨c, rfl⟩
  | panic => exact absurd h h2
  | fuel => exact absurd h h1

/-- **C72.** It gives a value only if the JSON is what the type expects, and an error only if it is not. -/
theorem C72_fits {env : Env} (he : WfEnv env) {n ctx t j} :
    (∀ v, fromJson env n ctx t j = .ok v → Suits env (.ty t) j) ∧ (∀ c, fromJson env n ctx t j = .err c → ¬ Suits env (.ty t) j) := by
  refine ⟨fun v => fromJson_suits (wf_names he) n ctx t j v, fun c h => ?_⟩
  obtain ⟨p, w, y, r, h1, h2, -⟩ := fromJson_err (wf_names he) n ctx t j c h
  exact h1.not_suits h2.not_suits

/-- **C72, in part.** The message of an error consists of the steps to a place inside of the JSON, and of what is wrong there; what is there does not fit.
Missing in the message are the indexes of tuples and the names of variants (`C72_tuple_violated`). -/
theorem C72_place_partial {env : Env} (he : WfEnv env) {n t j c} {root : String} (h : fromJson env n [root] t j = .err c) :
    ∃ p w y r, Place env (.ty t) j p w y ∧ Descends j (p.map (·.1)) y ∧ Wrong env w y r ∧ ¬ Suits env w y ∧
      ctxString c = " -> ".intercalate (root :: shown p ++ r) := by
  obtain ⟨p, w, y, r, h1, h2, rfl⟩ := fromJson_err (wf_names he) n _ t j c h
  exact ⟨p, w, y, r, h1, h1.descends, h2, h2.not_suits, by simp [ctxString]⟩

/-- **C72, in part.** If there are neither tuples nor variants with data then the message has all the steps that lead from the JSON as a whole to the
value that does not fit. -/
theorem C72_address_partial {env : Env} (he : WfEnv env) (ha : Addressed env) {n t j c} {root : String} (h : fromJson env n [root] t j = .err c) :
    ∃ p w y r, Descends j p y ∧ Wrong env w y r ∧ ¬ Suits env w y ∧ ctxString c = " -> ".intercalate (root :: p.map Into.text ++ r) := by
  obtain ⟨p, w, y, r, h1, h2, h3, h4, h5⟩ := C72_place_partial he h
  refine ⟨p.map (·.1), w, y, r, h2, h3, h4, ?_⟩
  rw [h5, h1.shown_all ha (.inl ⟨t, rfl⟩), List.map_map]
  rfl

/-- `struct Pair(u32, u32)` and `enum Either { A(u32), B(u32) }`. -/
def pairs : Env
  | 0 => .struct (.unnamed [.u32, .u32])
  | _ => .enum [("A", .unnamed [.u32]), ("B", .unnamed [.u32])]

/-- **C72, limit.** The messages do not say which component of a tuple it is, nor which variant: different places that do not fit get the same one. -/
theorem C72_tuple_violated : ∃ (c d : Ctx),
    fromJson pairs 3 ["root"] (.user 0) (.list [.num 0, .str "a"]) = .err c ∧ fromJson pairs 3 ["root"] (.user 0) (.list [.str "a", .num 0]) = .err c ∧
    fromJson pairs 3 ["root"] (.user 1) (.obj [("A", .str "a")]) = .err d ∧ fromJson pairs 3 ["root"] (.user 1) (.obj [("B", .str "a")]) = .err d ∧
    ctxString c = "root -> number(u32) expected, received string" ∧ ctxString d = "root -> number(u32) expected, received string" :=
  ⟨["number(u32) expected, received string", "root"], ["number(u32) expected, received string", "root"], rfl, rfl, rfl, rfl, by decide +kernel,
    by decide +kernel⟩

def exampleRank : Ty → Nat
  | .option t => exampleRank t + 1
  | .user 0 => 0
  | .user 1 => 0
  | .user _ => 1
  | _ => 0

example : Sized exampleEnv := by
  refine ⟨exampleRank, fun t => Nat.lt_succ_self _, fun u t h => ?_⟩
  match u with
  | 0 => cases h
  | 1 => cases h
  | u + 2 => cases h; exact Nat.zero_lt_one

/-- A tree with a second child that has a wrong point: the message has the way to it, without the name of the variant. -/
example : ∃ c, fromJson exampleEnv 20 ["root"] (.user 0)
      (.obj [("name", .str "a"), ("id", .num 0), ("kids", .list [.obj [("kids", .list []), ("id", .num 0), ("name", .str "b")],
        .obj [("name", .null), ("kids", .list []), ("id", .num 0)]])]) = .err c ∧
    ctxString c = "root -> field: 'kids' -> 1 -> field: 'name' -> string expected, received null" :=
  ⟨_, rfl, by decide +kernel⟩

example : ∃ c, fromJson exampleEnv 20 ["root"] (.vec (.user 1)) (.list [.str "Leaf", .obj [("Point", .obj [("x", .num 0)])]]) = .err c ∧
    ctxString c = "root -> 1 -> field: 'y' -> missing field" :=
  ⟨_, rfl, by decide +kernel⟩

/-- What is wrong in a field with a default is not an error. -/
example : ∃ v, fromJson exampleEnv 20 ["root"] (.user 0) (.obj [("name", .str "a"), ("id", .num 0), ("kids", .list []), ("kind", .tru)]) = .ok v :=
  ⟨_, rfl⟩

/-- `struct Form { names: Vec<String>, sizes: BTreeMap<String, Option<u32>> }` and `enum Kind { Small, Large }`. -/
def formEnv : Env
  | 0 => .struct (.named [{ name := "names", ty := .vec .string }, { name := "sizes", ty := .btreeMap (.option .u32) }, { name := "kind", ty := .user 1 }])
  | _ => .enum [("Small", .unit), ("Large", .unit)]

example : WfEnv formEnv ∧ Addressed formEnv ∧ ∃ c, fromJson formEnv 20 ["root"] (.user 0)
      (.obj [("kind", .str "Small"), ("names", .list []), ("sizes", .obj [("a", .num 0), ("b", .null), ("c", .str "1")])]) = .err c ∧
    ctxString c = "root -> field: 'sizes' -> field: 'c' -> number(u32) expected, received string" := by
  refine ⟨fun n => ?_, fun u => ?_, _, rfl, by decide +kernel⟩
  · match n with
    | 0 =>
      refine ⟨fun t ht => ?_, fun fs h => by cases h; decide⟩
      simp [Fields.types] at ht
      rcases ht with rfl | rfl | rfl
      · trivial
      · exact ⟨.u32, trivial⟩
      · trivial
    | n + 1 =>
      refine ⟨by decide, fun e he => ?_⟩
      simp at he
      rcases he with rfl | rfl <;> exact ⟨by simp [Fields.types], fun _ h => by cases h⟩
  · match u with
    | 0 => trivial
    | u + 1 => simp [formEnv]

end Verif.Json
