import Mathlib.Data.List.Induction
/-!
# Content types of requests and responses (C47)

The browser side `crates/vertigo/src/driver_module/src_js/api_browser/fetch.ts` and the server side
`crates/vertigo-cli/src/serve/html/send_request.rs`.

Texts are lists of characters.  A response header arrives as bytes; the browser shows a byte as the character
with the same number (Latin-1), the server only reads values of visible ASCII characters.  Header names that
the browser accepts are ASCII.
-/

namespace Verif.Host

abbrev Text := List Char

/-! ## Character functions -/

/-- JavaScript `trim` and Rust `trim` with their sets of white space. -/
def trimBy (ws : Char → Bool) (l : Text) : Text := ((l.dropWhile ws).reverse.dropWhile ws).reverse

/-- White space of JavaScript among the Latin-1 characters: TAB, LF, VT, FF, CR, SP, NBSP. -/
def jsSpace (c : Char) : Bool := (9 ≤ c.toNat && c.toNat ≤ 13) || c.toNat = 32 || c.toNat = 160

/-- White space of Rust (`char::is_whitespace`) among the Latin-1 characters: also NEL. -/
def rustSpace (c : Char) : Bool :=
  (9 ≤ c.toNat && c.toNat ≤ 13) || c.toNat = 32 || c.toNat = 133 || c.toNat = 160

/-- Lower case of an ASCII character. -/
def asciiLower (c : Char) : Char := if 65 ≤ c.toNat && c.toNat ≤ 90 then Char.ofNat (c.toNat + 32) else c

/-- Lower case of a Latin-1 character, in JavaScript and in Rust: the letters `A` to `Z` and `À` to `Þ`
without the multiplication sign. -/
def latinLower (c : Char) : Char :=
  if (65 ≤ c.toNat && c.toNat ≤ 90) || (192 ≤ c.toNat && c.toNat ≤ 222 && c.toNat ≠ 215) then
    Char.ofNat (c.toNat + 32)
  else c

/-- The first piece of `split(';')`. -/
def beforeSemicolon (l : Text) : Text := l.takeWhile (· ≠ ';')

/-! ## Responses -/

/-- What a body is decoded as. -/
inductive Kind where
  | json
  | text
  | bin
  deriving DecidableEq

/-- `fetch.ts:6-33` `getTypeResponse`. -/
def getTypeResponse (contentType : Option Text) : Kind :=
  match contentType with
  | none => .bin
  | some contentType =>
    let typeClear := trimBy jsSpace ((beforeSemicolon contentType).map latinLower)
    if typeClear = "application/json".toList then .json
    else if typeClear = "text/plain".toList then .text
    else .bin

/-- A header value as the browser shows it. -/
def latin1 (value : List UInt8) : Text := value.map fun x => Char.ofNat x.toNat

/-- `response.headers.get('content-type')` (`fetch.ts:132`): the values of all headers of that name, joined
by a comma and a space (Fetch standard, "get"). -/
def browserContentType (values : List (List UInt8)) : Option Text :=
  match values with
  | [] => none
  | v :: vs => some (latin1 v ++ vs.flatMap fun v => ',' :: ' ' :: latin1 v)

/-- How the browser decodes the body of a response. -/
def browserKind (values : List (List UInt8)) : Kind := getTypeResponse (browserContentType values)

/-- `HeaderValue::to_str`: every byte must be a visible ASCII character or a tab. -/
def visible (x : UInt8) : Bool := (32 ≤ x.toNat && x.toNat < 127) || x.toNat = 9

/-- `send_request.rs:144-175` `get_response_type`; `headers().get` gives the first value. -/
def serverKind (values : List (List UInt8)) : Kind :=
  match values with
  | [] => .bin
  | v :: _ =>
    if v.all visible then
      let chunk := (trimBy rustSpace (beforeSemicolon (latin1 v))).map latinLower
      if chunk = "application/json".toList then .json
      else if chunk = "text/plain".toList then .text
      else .bin
    else .bin

theorem dropWhile_map' (ws : Char → Bool) (f : Char → Char) (l : Text) (h : ∀ c ∈ l, ws (f c) = ws c) :
    (l.map f).dropWhile ws = (l.dropWhile ws).map f := by
  induction l with
  | nil => rfl
  | cons c l ih =>
    rw [List.map_cons, List.dropWhile_cons, List.dropWhile_cons, h c (by simp)]
    split
    · exact ih fun c hc => h c (by simp [hc])
    · rfl

theorem dropWhile_congr' (p q : Char → Bool) (l : Text) (h : ∀ c ∈ l, p c = q c) :
    l.dropWhile p = l.dropWhile q := by
  induction l with
  | nil => rfl
  | cons c l ih =>
    rw [List.dropWhile_cons, List.dropWhile_cons, h c (by simp), ih fun c hc => h c (by simp [hc])]

theorem trimBy_map (ws : Char → Bool) (f : Char → Char) (l : Text) (h : ∀ c ∈ l, ws (f c) = ws c) :
    trimBy ws (l.map f) = (trimBy ws l).map f := by
  unfold trimBy
  rw [dropWhile_map' ws f l h, ← List.map_reverse, dropWhile_map', ← List.map_reverse]
  intro c hc
  exact h c (List.dropWhile_subset _ (List.mem_reverse.1 hc))

theorem trimBy_congr (p q : Char → Bool) (l : Text) (h : ∀ c ∈ l, p c = q c) : trimBy p l = trimBy q l := by
  unfold trimBy
  rw [dropWhile_congr' p q l h, dropWhile_congr' p q]
  intro c hc
  exact h c (List.dropWhile_subset _ (List.mem_reverse.1 hc))

theorem toNat_ofNat_small {n : Nat} (h : n < 55296) : (Char.ofNat n).toNat = n := by
  have hv : n.isValidChar := .inl h
  unfold Char.ofNat
  rw [dif_pos hv]
  simp [Char.ofNatAux, Char.toNat]

theorem latinLower_toNat {c : Char} (h : c.toNat < 256) :
    (latinLower c).toNat = if (65 ≤ c.toNat && c.toNat ≤ 90) || (192 ≤ c.toNat && c.toNat ≤ 222 && c.toNat ≠ 215)
      then c.toNat + 32 else c.toNat := by
  unfold latinLower
  split
  · exact toNat_ofNat_small (by omega)
  · rfl

theorem jsSpace_lower {c : Char} (h : c.toNat < 256) : jsSpace (latinLower c) = jsSpace c := by
  unfold jsSpace
  rw [latinLower_toNat h]
  split
  · rename_i hc
    simp only [Bool.or_eq_true, Bool.and_eq_true, decide_eq_true_eq, ne_eq] at hc
    have h1 : ¬ (c.toNat ≤ 13) := by omega
    have h2 : ¬ (c.toNat = 32) := by omega
    have h3 : ¬ (c.toNat = 160) := by omega
    have h4 : ¬ (c.toNat + 32 ≤ 13) := by omega
    have h5 : ¬ (c.toNat + 32 = 32) := by omega
    have h6 : ¬ (c.toNat + 32 = 160) := by omega
    simp [h1, h2, h3, h4, h6]
    omega
  · rfl

theorem latin1_lt {v : List UInt8} {c : Char} (h : c ∈ latin1 v) : c.toNat < 256 := by
  obtain ⟨x, _, rfl⟩ := List.mem_map.1 h
  have := x.toNat_lt
  rw [toNat_ofNat_small (by omega)]
  omega

theorem latin1_visible {v : List UInt8} (hv : v.all visible = true) {c : Char} (h : c ∈ latin1 v) :
    c.toNat < 127 := by
  obtain ⟨x, hx, rfl⟩ := List.mem_map.1 h
  have := List.all_eq_true.1 hv x hx
  have hlt := x.toNat_lt
  simp only [visible, Bool.or_eq_true, Bool.and_eq_true, decide_eq_true_eq] at this
  rw [toNat_ofNat_small (by omega)]
  omega

theorem spaces_agree {c : Char} (h : c.toNat < 127) : jsSpace c = rustSpace c := by
  unfold jsSpace rustSpace
  have h1 : ¬ c.toNat = 133 := by omega
  simp [h1]

/-! ## Specification of responses -/

/-- The media type of a header value is `t`, ignoring case, spaces around it and parameters. -/
def HasType (t value : Text) : Prop :=
  ∃ a m b params, value = a ++ m ++ b ++ params ∧ a.all jsSpace ∧ b.all jsSpace ∧ m.map latinLower = t ∧
    (params = [] ∨ params.head? = some ';')

theorem trimBy_split (ws : Char → Bool) (l : Text) :
    ∃ a b, l = a ++ trimBy ws l ++ b ∧ a.all ws ∧ b.all ws := by
  refine ⟨l.takeWhile ws, ((l.dropWhile ws).reverse.takeWhile ws).reverse, ?_, ?_, ?_⟩
  · unfold trimBy
    rw [List.append_assoc, ← List.reverse_append, List.takeWhile_append_dropWhile, List.reverse_reverse,
      List.takeWhile_append_dropWhile]
  · simp
  · simp

theorem dropWhile_all (ws : Char → Bool) (a l : Text) (ha : a.all ws) : (a ++ l).dropWhile ws = l.dropWhile ws := by
  induction a with
  | nil => rfl
  | cons c a ih =>
    simp only [List.all_cons, Bool.and_eq_true] at ha
    rw [List.cons_append, List.dropWhile_cons, if_pos ha.1, ih ha.2]

theorem trimBy_around (ws : Char → Bool) (a m b : Text) (ha : a.all ws) (hb : b.all ws)
    (hfirst : ∀ c, m.head? = some c → ws c = false) (hlast : ∀ c, m.getLast? = some c → ws c = false)
    (hne : m ≠ []) : trimBy ws (a ++ m ++ b) = m := by
  unfold trimBy
  have h1 : (a ++ m ++ b).dropWhile ws = m ++ b := by
    rw [List.append_assoc, dropWhile_all ws a _ ha]
    cases m with
    | nil => exact absurd rfl hne
    | cons c m => rw [List.cons_append, List.dropWhile_cons, if_neg (by simp [hfirst c rfl])]
  rw [h1, List.reverse_append, dropWhile_all ws _ _ (by simpa using hb)]
  have h2 : m.reverse.dropWhile ws = m.reverse := by
    cases hr : m.reverse with
    | nil => rfl
    | cons c r =>
      have : m.getLast? = some c := by rw [← List.head?_reverse, hr]; rfl
      rw [List.dropWhile_cons, if_neg (by simp [hlast c this])]
  rw [h2, List.reverse_reverse]

theorem jsSpace_not_semicolon {c : Char} (h : jsSpace c = true) : c ≠ ';' := by
  rintro rfl; revert h; decide

theorem lower_semicolon {c : Char} (h : c = ';') : latinLower c = ';' := by subst h; decide

/-- The text before the first semicolon, in lower case and trimmed, is `t` exactly if the value has type `t`. -/
theorem trimmed_iff (t value : Text) (hlt : ∀ c ∈ value, c.toNat < 256) (hsemi : ';' ∉ t) (hne : t ≠ [])
    (hfirst : ∀ c, t.head? = some c → jsSpace c = false) (hlast : ∀ c, t.getLast? = some c → jsSpace c = false) :
    trimBy jsSpace ((beforeSemicolon value).map latinLower) = t ↔ HasType t value := by
  have hbs : ∀ c ∈ beforeSemicolon value, c.toNat < 256 := fun c hc => hlt c (List.takeWhile_subset _ hc)
  rw [trimBy_map _ _ _ fun c hc => jsSpace_lower (hbs c hc)]
  constructor
  · intro h
    obtain ⟨a, b, hab, ha, hb⟩ := trimBy_split jsSpace (beforeSemicolon value)
    refine ⟨a, trimBy jsSpace (beforeSemicolon value), b, value.dropWhile (· ≠ ';'), ?_, ha, hb, h, ?_⟩
    · rw [← hab]; exact List.takeWhile_append_dropWhile.symm
    · cases hd : value.dropWhile (· ≠ ';') with
      | nil => exact .inl rfl
      | cons c r =>
        right
        have := List.head?_dropWhile_not (fun c : Char => decide (c ≠ ';')) value
        rw [hd] at this
        simp at this
        simp [this]
  · rintro ⟨a, m, b, params, rfl, ha, hb, hm, hp⟩
    have hmsemi : ∀ c ∈ m, c ≠ ';' := by
      intro c hc he
      apply hsemi
      rw [← hm]
      exact List.mem_map.2 ⟨c, hc, lower_semicolon he⟩
    have htake : beforeSemicolon (a ++ m ++ b ++ params) = a ++ m ++ b := by
      unfold beforeSemicolon
      have hall : ∀ c ∈ a ++ m ++ b, decide (c ≠ ';') = true := by
        intro c hc
        simp only [List.mem_append] at hc
        simp only [decide_eq_true_eq]
        rcases hc with (hc | hc) | hc
        · exact jsSpace_not_semicolon (List.all_eq_true.1 ha c hc)
        · exact hmsemi c hc
        · exact jsSpace_not_semicolon (List.all_eq_true.1 hb c hc)
      rw [List.takeWhile_append_of_pos hall]
      rcases hp with rfl | hp
      · simp
      · cases params with
        | nil => simp at hp
        | cons c params =>
          simp only [List.head?_cons, Option.some.injEq] at hp
          subst hp
          simp
    rw [htake]
    have hm256 : ∀ c ∈ m, c.toNat < 256 := fun c hc => hlt c (by simp [hc])
    have hmne : m ≠ [] := by rintro rfl; exact hne (by simpa using hm.symm)
    rw [trimBy_around jsSpace a m b ha hb ?_ ?_ hmne, hm]
    · intro c hc
      have hc' : t.head? = some (latinLower c) := by rw [← hm]; simp [hc]
      have := hfirst _ hc'
      rwa [jsSpace_lower (hm256 c (List.mem_of_mem_head? hc))] at this
    · intro c hc
      have hc' : t.getLast? = some (latinLower c) := by rw [← hm]; simp [hc]
      have := hlast _ hc'
      rwa [jsSpace_lower (hm256 c (List.mem_of_getLast? hc))] at this

/-- **C47** (responses, meaning).  The browser decodes a body as json exactly if its content type is
`application/json` and as text exactly if it is `text/plain`, ignoring case, spaces around it and
parameters. -/
theorem C47_response_kind (value : List UInt8) :
    (browserKind [value] = .json ↔ HasType "application/json".toList (latin1 value)) ∧
      (browserKind [value] = .text ↔ HasType "text/plain".toList (latin1 value)) := by
  have h1 := trimmed_iff "application/json".toList (latin1 value) (fun c hc => latin1_lt hc)
    (by decide) (by decide) (by decide) (by decide)
  have h2 := trimmed_iff "text/plain".toList (latin1 value) (fun c hc => latin1_lt hc)
    (by decide) (by decide) (by decide) (by decide)
  rw [← h1, ← h2]
  have hb : browserContentType [value] = some (latin1 value) := by simp [browserContentType]
  unfold browserKind
  rw [hb]
  simp only [getTypeResponse]
  generalize trimBy jsSpace ((beforeSemicolon (latin1 value)).map latinLower) = x
  have hne : "application/json".toList ≠ "text/plain".toList := by decide
  generalize "application/json".toList = j at *
  generalize "text/plain".toList = t at *
  constructor
  · split
    · rename_i h; simp [h]
    · rename_i h; split <;> simp [h]
  · split
    · rename_i h; rw [h]; simp [hne]
    · split <;> simp [*]

/-- **C47** (responses).  With at most one content-type header, made of visible ASCII characters, the browser
and the server decode a body in the same way; with other characters the server decodes it as binary.
Missing: `C47_response_parameter_violated`, `C47_response_twice_violated`. -/
theorem C47_response_partial (value : List UInt8) :
    serverKind [] = browserKind [] ∧
      serverKind [value] = (if value.all visible then browserKind [value] else .bin) := by
  refine ⟨rfl, ?_⟩
  have hb : browserContentType [value] = some (latin1 value) := by simp [browserContentType]
  unfold serverKind browserKind
  rw [hb]
  dsimp only
  split
  · rename_i hv
    have hbs : ∀ c ∈ beforeSemicolon (latin1 value), c.toNat < 127 := fun c hc =>
      latin1_visible hv (List.takeWhile_subset _ hc)
    have : (trimBy rustSpace (beforeSemicolon (latin1 value))).map latinLower =
        trimBy jsSpace ((beforeSemicolon (latin1 value)).map latinLower) := by
      rw [trimBy_map _ _ _ fun c hc => jsSpace_lower (by have := hbs c hc; omega),
        trimBy_congr jsSpace rustSpace _ fun c hc => spaces_agree (hbs c hc)]
    rw [this]
    rfl
  · rfl

/-- A parameter with a letter outside of ASCII: json in the browser, binary on the server. -/
theorem C47_response_parameter_violated :
    let value : List UInt8 := "application/json; title=".toList.map (fun c => c.toNat.toUInt8) ++ [233]
    browserKind [value] = .json ∧ serverKind [value] = .bin := by
  decide +kernel

/-- Two content-type headers: binary in the browser, json on the server. -/
theorem C47_response_twice_violated :
    let json : List UInt8 := "application/json".toList.map (fun c => c.toNat.toUInt8)
    browserKind [json, json] = .bin ∧ serverKind [json, json] = .json := by
  decide +kernel

example : HasType "text/plain".toList " Text/Plain ; charset=utf-8".toList :=
  ⟨[' '], "Text/Plain".toList, [' '], "; charset=utf-8".toList, rfl, rfl, rfl, by decide, .inr rfl⟩

/-! ## Requests -/

/-- The body of a request: `send_request.rs:11-16`, `fetch.ts:53`. -/
inductive Body where
  | none
  | text
  | json
  | binary
  deriving DecidableEq

abbrev Headers := List (Text × Text)

/-- The value of a header in a map with lower case names. -/
def Headers.value (h : Headers) (name : Text) : Option Text := h.lookup name

/-- `Headers.append` of the browser: values of the same name are joined. -/
def browserAppend (h : Headers) (name value : Text) : Headers :=
  match h.lookup name with
  | some old => h.map fun e => if e.1 = name then (name, old ++ ", ".toList ++ value) else e
  | none => h ++ [(name, value)]

/-- `new Headers(record)` (`fetch.ts:54`): names are compared without case. -/
def browserNew (record : Headers) : Headers :=
  record.foldl (fun h e => browserAppend h (e.1.map asciiLower) e.2) []

/-- `headers.has` and `headers.set` for a missing content type. -/
def withDefault (h : Headers) (contentType : Text) : Headers :=
  match h.lookup "content-type".toList with
  | some _ => h
  | none => h ++ [("content-type".toList, contentType)]

/-- `fetch.ts:53-95` `getHeadersAndBody`, the headers. -/
def browserHeaders (record : Headers) (body : Body) : Headers :=
  let h := browserNew record
  match body with
  | .none => h
  | .text => withDefault h "text/plain; charset=utf-8".toList
  | .binary => withDefault h "application/octet-stream".toList
  | .json => withDefault h "application/json; charset=utf-8".toList

/-- `HashMap::insert`. -/
def hashInsert (h : Headers) (name value : Text) : Headers :=
  match h.lookup name with
  | some _ => h.map fun e => if e.1 = name then (name, value) else e
  | none => h ++ [(name, value)]

/-- `send_request.rs:128-136` `clear_headers`; header names that can be sent have no spaces, so `trim` does
nothing. -/
def clearHeaders (record : Headers) : Headers :=
  record.foldl (fun h e => hashInsert h (e.1.map asciiLower) e.2) []

/-- `send_request.rs:98-126` `get_headers_and_body`, the headers. -/
def serverHeaders (record : Headers) (body : Body) : Headers :=
  let h := clearHeaders record
  match body with
  | .none => h
  | .text => withDefault h "text/plain; charset=utf-8".toList
  | .binary => h
  | .json => withDefault h "application/json; charset=utf-8".toList

/-! ## Specification of requests -/

/-- The header of the record with this name, ignoring case. -/
def explicit (record : Headers) (name : Text) : Option Text :=
  (record.find? fun e => e.1.map asciiLower = name).map (·.2)

/-- No two names of the record are equal when case is ignored. -/
def DistinctNames (record : Headers) : Prop := (record.map fun e => e.1.map asciiLower).Nodup

/-- The content type that goes with a body when there is no explicit header. -/
def defaultType : Body → Option Text
  | .none => none
  | .text => some "text/plain; charset=utf-8".toList
  | .json => some "application/json; charset=utf-8".toList
  | .binary => some "application/octet-stream".toList

theorem lookup_append' (h : Headers) (n v name : Text) :
    (h ++ [(n, v)]).lookup name = (h.lookup name).or (if name = n then some v else none) := by
  induction h with
  | nil =>
    simp only [List.nil_append, List.lookup]
    by_cases hn : name = n
    · simp [hn]
    · rw [show (name == n) = false from by simp [hn]]; simp [hn]
  | cons e h ih =>
    obtain ⟨a, x⟩ := e
    simp only [List.cons_append, List.lookup]
    split
    · rfl
    · exact ih

theorem explicit_append (record : Headers) (e : Text × Text) (name : Text) :
    explicit (record ++ [e]) name =
      (explicit record name).or (if name = e.1.map asciiLower then some e.2 else none) := by
  unfold explicit
  rw [List.find?_append]
  cases record.find? fun e => decide (e.1.map asciiLower = name) with
  | some x => rfl
  | none =>
    simp only [Option.none_or, Option.map_none, List.find?_singleton]
    by_cases h : e.1.map asciiLower = name
    · simp [h]
    · simp [h, Ne.symm h]

theorem explicit_none (record : Headers) (name : Text)
    (h : name ∉ record.map fun e => e.1.map asciiLower) : explicit record name = none := by
  unfold explicit
  rw [Option.map_eq_none_iff, List.find?_eq_none]
  intro e he hn
  exact h (List.mem_map.2 ⟨e, he, by simpa using hn⟩)

/-- Both sides, for a record with distinct names. -/
theorem build_lookup (insert : Headers → Text → Text → Headers)
    (hins : ∀ h n v, h.lookup n = none → insert h n v = h ++ [(n, v)]) (record : Headers)
    (hd : DistinctNames record) (name : Text) :
    (record.foldl (fun h e => insert h (e.1.map asciiLower) e.2) []).lookup name = explicit record name := by
  induction record using List.reverseRecOn generalizing name with
  | nil => rfl
  | append_singleton record e ih =>
    unfold DistinctNames at hd
    rw [List.map_append, List.nodup_append] at hd
    have hnew : e.1.map asciiLower ∉ record.map fun e => e.1.map asciiLower := fun hm =>
      hd.2.2 _ hm _ (by simp) rfl
    rw [List.foldl_append, List.foldl_cons, List.foldl_nil,
      hins _ _ _ (by rw [ih hd.1, explicit_none _ _ hnew]), lookup_append', ih hd.1, explicit_append]

theorem browserNew_lookup (record : Headers) (hd : DistinctNames record) (name : Text) :
    (browserNew record).lookup name = explicit record name :=
  build_lookup browserAppend (fun h n v hn => by simp [browserAppend, hn]) record hd name

theorem clearHeaders_lookup (record : Headers) (hd : DistinctNames record) (name : Text) :
    (clearHeaders record).lookup name = explicit record name :=
  build_lookup hashInsert (fun h n v hn => by simp [hashInsert, hn]) record hd name

theorem withDefault_lookup (h : Headers) (ct name : Text) :
    (withDefault h ct).lookup name =
      (h.lookup name).or (if name = "content-type".toList then some ct else none) := by
  unfold withDefault
  split
  · rename_i v hv
    by_cases hn : name = "content-type".toList
    · subst hn; rw [hv]; rfl
    · simp only [hn, if_false, Option.or_none]
  · rw [lookup_append']

/-- **C47** (requests, browser).  The headers of a request are the ones that the program gave, and a content
type for its body if the program gave none. -/
theorem C47_request_browser (record : Headers) (body : Body) (hd : DistinctNames record) (name : Text) :
    (browserHeaders record body).lookup name =
      (explicit record name).or (if name = "content-type".toList then defaultType body else none) := by
  unfold browserHeaders
  cases body <;> simp only [withDefault_lookup, browserNew_lookup record hd, defaultType, ite_self, Option.or_none]

/-- **C47** (requests).  The server sends the same headers, unless the body is binary and the program gave no
content type.  Missing: `C47_request_binary_violated`, and names that differ in case only
(`C47_request_names_violated`). -/
theorem C47_request_partial (record : Headers) (body : Body) (hd : DistinctNames record)
    (hb : body = .binary → explicit record "content-type".toList ≠ none) (name : Text) :
    (serverHeaders record body).lookup name = (browserHeaders record body).lookup name := by
  rw [C47_request_browser record body hd]
  unfold serverHeaders
  cases body with
  | binary =>
    simp only [clearHeaders_lookup record hd]
    by_cases hn : name = "content-type".toList
    · subst hn
      cases he : explicit record "content-type".toList with
      | none => exact absurd he (hb rfl)
      | some v => rfl
    · simp only [hn, if_false, Option.or_none]
  | _ => simp only [withDefault_lookup, clearHeaders_lookup record hd, defaultType, ite_self, Option.or_none]

/-- A binary body without a content type: the browser says it is binary, the server says nothing. -/
theorem C47_request_binary_violated :
    (browserHeaders [] .binary).lookup "content-type".toList = some "application/octet-stream".toList ∧
      (serverHeaders [] .binary).lookup "content-type".toList = none := by
  decide +kernel

/-- Names that differ in case only: the browser sends both values, the server one of them. -/
theorem C47_request_names_violated :
    let record : Headers := [("X-A".toList, "1".toList), ("x-a".toList, "2".toList)]
    (browserHeaders record .none).lookup "x-a".toList = some "1, 2".toList ∧
      (serverHeaders record .none).lookup "x-a".toList = some "2".toList := by
  decide +kernel

example : DistinctNames [("Content-Type".toList, "image/png".toList), ("X-A".toList, "1".toList)] := by
  unfold DistinctNames; decide +kernel

example : (serverHeaders [("Content-Type".toList, "image/png".toList), ("X-A".toList, "1".toList)] .binary).lookup
    "content-type".toList = some "image/png".toList := by decide +kernel

end Verif.Host
