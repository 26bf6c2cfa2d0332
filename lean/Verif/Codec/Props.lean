import Verif.Codec.TsLemmas
/-!
# Properties C13 - C17: the wire format

Reading guide.  `JsJson`/`JsValue` are the values; `writeTo` is the Rust encoder
working on a buffer of a given size; `decodeJson n`/`decodeValue n` the Rust
decoder (`n` is a recursion budget of the model, `C16` shows that it is never the
reason of an outcome); `Ts.saveToBuffer`/`Ts.jsValueDecode` the TypeScript side.
`WF` says that maps have distinct keys and at most 65535 entries, `wireLen` is the
length of the encoding as a natural number.
-/
namespace Verif.Codec

/-! ## Sample values used by the non-vacuity examples -/

/-- `{"name": "żółw", "tags": [true, null, 1.5], "nested": {"k": []}}` -/
def sampleJson : JsJson :=
  .obj [("name", .str "żółw"), ("tags", .list [.tru, .null, .num 0x3FF8000000000000]),
    ("nested", .obj [("k", .list [])])]

def sampleValue : JsValue :=
  .list [.str "call", .u32 7, .i32 (-5), .u64 (2 ^ 63), .i64 (-1), .f64 0, .tru, .fls, .null,
    .undefined, .vec [1, 2, 3], .json sampleJson, .list [.list []], .obj []]

theorem sampleJson_wf : sampleJson.WF := by
  simp [sampleJson, JsJson.WF, JsJson.WFO, JsJson.WFL]

theorem sampleValue_wf : sampleValue.WF ∧ sampleValue.NoObject := by
  simp [sampleValue, JsValue.WF, JsValue.WFL, JsValue.WFO, sampleJson_wf, JsValue.NoObject,
    JsValue.NoObjectL]

theorem sampleJson_len : sampleJson.wireLen = 70 := by decide
theorem sampleValue_len : sampleValue.wireLen = 147 := by decide

/-! ## C14: declared size -/

/-- C14: the size computed before encoding is the number of bytes written, for
every value whose encoding is shorter than 4 GiB (the size is a `u32`). -/
theorem C14_size_exact (v : JsValue) (h : v.wireLen < 2 ^ 32) :
    ∃ w, v.toSnapshot = .ok w ∧ w.size = v.getSize.toNat ∧ w.written.length = w.size ∧
      w.written.length = v.wireLen := by
  obtain ⟨h1, h2⟩ := toSnapshot_eq v h
  exact ⟨_, h1, rfl, by rw [encV_length, h2], encV_length v⟩

/-- C14 for `JsJson` (encoded into any buffer with enough room): exactly
`get_size` bytes are appended. -/
theorem C14_json_size_exact (j : JsJson) (w : MemWrite) (h : w.written.length + j.wireLen < 2 ^ 32)
    (hroom : w.written.length + j.getSize.toNat ≤ w.size) :
    ∃ bytes, j.writeTo w = .ok { w with written := w.written ++ bytes } ∧
      bytes.length = j.getSize.toNat := by
  have hs : j.getSize.toNat = j.wireLen := by rw [getSizeJ_eq]; simp; omega
  refine ⟨encJ j, writesJ_ok j w (by omega) h, by rw [encJ_length, hs]⟩

/-- The encoder succeeds exactly when the value fits: a buffer that is too small
is never overrun. -/
theorem C14_no_overrun (v : JsValue) (w : MemWrite) (hw : w.written.length ≤ w.size)
    (hlen : w.written.length + v.wireLen < 2 ^ 32) :
    (∃ w', v.writeTo w = .ok w') ↔ w.written.length + v.wireLen ≤ w.size := by
  constructor
  · rintro ⟨w', h⟩
    have := writesV v w (by rw [encV_length]; exact hlen) hw
    rw [h, encV_length] at this
    split at this
    · assumption
    · cases this
  · intro h
    exact ⟨_, writesV_ok v w h hlen⟩

example : ∃ w, sampleValue.toSnapshot = .ok w ∧ w.size = 147 ∧ w.written.length = 147 := by
  obtain ⟨w, h1, h2, h3, h4⟩ := C14_size_exact sampleValue (by rw [sampleValue_len]; decide)
  rw [sampleValue_len] at h4
  exact ⟨w, h1, by omega, h4⟩

/-! ## C13: `JsJson` round trip -/

/-- C13: writing a `JsJson` into a buffer and reading at the position where it was
written returns the same value and leaves the reader right behind it, whatever
was written before (`w`) and follows after (`post`). -/
theorem C13_json_roundtrip (j : JsJson) (hw : j.WF) (w : MemWrite) (post : List UInt8)
    (hroom : w.written.length + j.wireLen ≤ w.size)
    (hlen : w.written.length + j.wireLen + post.length < 2 ^ 32) :
    ∃ w', j.writeTo w = .ok w' ∧
      decodeJson ((w'.written ++ post).length + 1) ⟨w'.written ++ post, w.written.length⟩ =
        .ok (j, ⟨w'.written ++ post, w'.written.length⟩) := by
  refine ⟨_, writesJ_ok j w hroom (by omega), ?_⟩
  have hd := depthJ_le j
  have := reads_json j ((w.written ++ encJ j ++ post).length + 1)
    (by simp [encJ_length]; omega) hw (by omega) (w.written ++ encJ j ++ post) w.written.length post
    (by simp [encJ_length]; omega) (by simp) (by simp)
  simp only at this ⊢
  rw [this]
  simp

example : ∃ w', sampleJson.writeTo ⟨100, [1, 2]⟩ = .ok w' ∧
    decodeJson ((w'.written ++ [9]).length + 1) ⟨w'.written ++ [9], 2⟩ =
      .ok (sampleJson, ⟨w'.written ++ [9], w'.written.length⟩) :=
  C13_json_roundtrip sampleJson sampleJson_wf ⟨100, [1, 2]⟩ [9]
    (by rw [sampleJson_len]; decide) (by rw [sampleJson_len]; decide)

/-- The limit of 65535 entries is real: an object with exactly 65536 entries is
read back as the empty object. -/
theorem C13_object_limit_violated (l : List (String × JsJson)) (hl : l.length = 65536) (w : MemWrite)
    (hroom : w.written.length + (JsJson.obj l).wireLen ≤ w.size)
    (hlen : w.written.length + (JsJson.obj l).wireLen < 2 ^ 32) :
    ∃ w' r, (JsJson.obj l).writeTo w = .ok w' ∧
      decodeJson 1 ⟨w'.written, w.written.length⟩ = .ok (.obj [], r) := by
  have h : Reads (decodeJson 1) ([7] ++ be16 (UInt16.ofNat l.length)) (.obj []) := by
    refine Reads.bind (reads_byte 7) ?_
    refine Reads.bind (e2 := []) (reads_u16 _) ?_
    rw [hl]
    exact Reads.ret _
  exact ⟨_, _, writesJ_ok _ w hroom hlen,
    h (w.written ++ encJ (.obj l)) w.written.length (encJO l) (by simp [encJ_length]; omega) (by simp [encJ]) (by simp)⟩

example : ∃ l : List (String × JsJson), l.length = 65536 ∧ (JsJson.obj l).wireLen < 2 ^ 32 := by
  refine ⟨List.replicate (2 ^ 16) ("a", .null), List.length_replicate, ?_⟩
  have : ∀ n, JsJson.wireLenO (List.replicate n ("a", .null)) = n * 6 := by
    intro n
    induction n with
    | zero => rfl
    | succ n ih =>
      rw [List.replicate_succ, JsJson.wireLenO, ih]
      have : "a".utf8ByteSize = 1 := by decide
      simp only [this, JsJson.wireLen]
      omega
  rw [JsJson.wireLen, this]
  omega

theorem mapInsert_keys {β : Type} (l : List (String × β)) (k : String) (v : β) (h : (l.map (·.1)).Nodup) :
    ((mapInsert l k v).map (·.1)).Nodup ∧ ∀ x, x ∈ (mapInsert l k v).map (·.1) ↔ x = k ∨ x ∈ l.map (·.1) := by
  induction l with
  | nil => simp [mapInsert]
  | cons e l ih =>
    obtain ⟨k', v'⟩ := e
    rw [List.map_cons, List.nodup_cons] at h
    obtain ⟨h1, h2⟩ := ih h.2
    by_cases hk : k' = k
    · subst hk
      simp only [mapInsert, if_true, List.map_cons, List.nodup_cons, List.mem_cons]
      exact ⟨h, fun x => ⟨.inr, fun h => h.elim .inl fun h => h⟩⟩
    · simp only [mapInsert, if_neg hk, List.map_cons, List.nodup_cons, List.mem_cons, h2]
      refine ⟨⟨?_, h1⟩, fun x => or_left_comm⟩
      rintro (rfl | h')
      · exact hk rfl
      · exact h.1 h'

theorem mapInsert_lookup {β : Type} (l : List (String × β)) (k x : String) (v : β) :
    (mapInsert l k v).lookup x = if x = k then some v else l.lookup x := by
  induction l with
  | nil =>
    by_cases h : x = k
    · simp [mapInsert, h]
    · have : (x == k) = false := by simpa using h
      simp [mapInsert, List.lookup, h, this]
  | cons e l ih =>
    obtain ⟨k', v'⟩ := e
    by_cases hk : k' = k
    · subst hk
      by_cases h : x = k'
      · simp [mapInsert, h]
      · have : (x == k') = false := by simpa using h
        simp [mapInsert, List.lookup, h, this]
    · rw [mapInsert, if_neg hk]
      by_cases h : x = k'
      · subst h; simp [List.lookup, hk]
      · have : (x == k') = false := by simpa using h
        simp only [List.lookup, this, ih]

theorem reads_jsonO_any : ∀ (l : List (String × JsJson)) (fuel : Nat) (acc : List (String × JsJson)),
    depthJO l ≤ fuel → JsJson.WFO l → JsJson.wireLenO l < 2 ^ 32 →
    Reads (readObj getLenString (decodeJson fuel) l.length acc) (encJO l)
      (l.foldl (fun m e => mapInsert m e.1 e.2) acc)
  | [], fuel, acc, _, _, _ => by simpa [readObj, encJO] using Reads.ret acc
  | (k, v) :: xs, fuel, acc, h, hw, hl => by
      simp only [depthJO, JsJson.WFO, JsJson.wireLenO] at h hw hl
      refine Reads.bind (reads_lenString k (by omega))
        (Reads.bind (reads_json v fuel (by omega) hw.1 (by omega)) ?_)
      exact reads_jsonO_any xs fuel (mapInsert acc k v) (by omega) hw.2 (by omega)

theorem foldl_mapInsert {β : Type} (l acc : List (String × β)) (h : (acc.map (·.1)).Nodup) :
    ((l.foldl (fun m e => mapInsert m e.1 e.2) acc).map (·.1)).Nodup ∧
      ∀ x, (l.foldl (fun m e => mapInsert m e.1 e.2) acc).lookup x = (l.reverse ++ acc).lookup x := by
  induction l generalizing acc with
  | nil => exact ⟨h, fun _ => rfl⟩
  | cons e l ih =>
    obtain ⟨h1, h2⟩ := ih (mapInsert acc e.1 e.2) (mapInsert_keys acc e.1 e.2 h).1
    refine ⟨h1, fun x => ?_⟩
    rw [List.foldl_cons, h2, List.reverse_cons, List.append_assoc]
    have : ∀ a b : List (String × β), (∀ x, a.lookup x = b.lookup x) → ∀ p : List (String × β), (p ++ a).lookup x = (p ++ b).lookup x := by
      intro a b hab p
      induction p with
      | nil => exact hab x
      | cons q p ihp => simp only [List.cons_append, List.lookup, ihp]
    refine this _ _ (fun y => ?_) _
    rw [mapInsert_lookup]
    by_cases hy : y = e.1
    · simp [List.lookup, hy]
    · have : (y == e.1) = false := by simpa using hy
      simp [List.lookup, hy, this]

/-- C16, repeated keys: bytes that list entries with repeated keys (no encoder
writes them) are read as an object with distinct keys, in which the last entry of
each key counts. -/
theorem C16_last_entry_counts (l : List (String × JsJson)) (hl : l.length < 2 ^ 16) (hw : JsJson.WFO l)
    (w : MemWrite) (hroom : w.written.length + (JsJson.obj l).wireLen ≤ w.size)
    (hlen : w.written.length + (JsJson.obj l).wireLen < 2 ^ 32) :
    ∃ w' m, (JsJson.obj l).writeTo w = .ok w' ∧
      decodeJson (w'.written.length + 1) ⟨w'.written, w.written.length⟩ =
        .ok (.obj m, ⟨w'.written, w'.written.length⟩) ∧
      (m.map (·.1)).Nodup ∧ ∀ k, m.lookup k = l.reverse.lookup k := by
  obtain ⟨h1, h2⟩ := foldl_mapInsert l [] (by simp)
  refine ⟨_, _, writesJ_ok _ w hroom hlen, ?_, h1, fun k => by simpa using h2 k⟩
  have hd := depthJ_le (.obj l)
  have hwl : JsJson.wireLenO l < 2 ^ 32 := by simp only [JsJson.wireLen] at hlen; omega
  have hn : (UInt16.ofNat l.length).toNat = l.length := by simp; omega
  have h : Reads (decodeJson ((w.written ++ encJ (.obj l)).length + 1)) (encJ (.obj l))
      (.obj (l.foldl (fun m e => mapInsert m e.1 e.2) [])) := by
    refine Reads.bind (reads_byte _) (Reads.bind (reads_u16 _) (Reads.map (g := JsJson.obj) ?_))
    simp only [hn]
    exact reads_jsonO_any l _ [] (by simp [encJ_length]; simp only [depthJ] at hd; omega) hw hwl
  have := h (w.written ++ encJ (.obj l)) w.written.length [] (by simp [encJ_length]; omega) (by simp) (by simp)
  simp only at this ⊢
  rw [this]
  simp

/-- `{"a": true, "b": null, "a": false}` reads as `{"a": false, "b": null}`. -/
example : decodeJson 20 ⟨[7, 0, 3, 0, 0, 0, 1, 97, 1, 0, 0, 0, 1, 98, 3, 0, 0, 0, 1, 97, 2], 0⟩ =
    .ok (.obj [("a", .fls), ("b", .null)], ⟨[7, 0, 3, 0, 0, 0, 1, 97, 1, 0, 0, 0, 1, 98, 3, 0, 0, 0, 1, 97, 2], 21⟩) := rfl

/-! ## C15: `JsValue` round trip -/

/-- C15 (partial): every `JsValue` without a non-empty `JsValue::Object` survives
the trip through a memory block.  Missing: values with objects, for which the
claim is false, see `C15_object_violated`. -/
theorem C15_value_roundtrip_partial (v : JsValue) (hw : v.WF) (ho : v.NoObject)
    (h : v.wireLen + 1 < 2 ^ 32) :
    ∃ w, v.toSnapshot = .ok w ∧ fromBlock w.written = .ok v := by
  obtain ⟨h1, h2⟩ := toSnapshot_eq v (by omega)
  refine ⟨_, h1, ?_⟩
  have hd := depthV_le v
  have hr := reads_value v ((encV v).length + 1) (by rw [encV_length]; omega) hw ho (by omega)
    (encV v) 0 [] (by rw [encV_length]; omega) (by simp) (by omega)
  simp only [fromBlock]
  rw [hr]
  rfl

example : ∃ w, sampleValue.toSnapshot = .ok w ∧ fromBlock w.written = .ok sampleValue :=
  C15_value_roundtrip_partial _ sampleValue_wf.1 sampleValue_wf.2
    (by rw [sampleValue_len]; decide)

/-- C15 fails for objects, and only for them: for every well formed value below
16 MiB, decoding its encoding gives the value back if and only if it contains no
non-empty `JsValue::Object`; otherwise decoding reports an error. -/
theorem C15_object_violated (v : JsValue) (hw : v.WF) (h : v.wireLen < 2 ^ 24)
    (ho : ¬ v.NoObject) :
    ∃ w, v.toSnapshot = .ok w ∧
      fromBlock w.written = .err "JsValue: Unknown data type prefix 0" := by
  obtain ⟨h1, h2⟩ := toSnapshot_eq v (by omega)
  refine ⟨_, h1, ?_⟩
  have hd := depthV_le v
  have hr := fails_value v ((encV v).length + 1) (by rw [encV_length]; omega) hw ho h
    (encV v) 0 [] (by rw [encV_length]; omega) (by simp) (by omega)
  simp only [fromBlock]
  rw [hr]
  rfl

theorem C15_roundtrip_iff (v : JsValue) (hw : v.WF) (h : v.wireLen < 2 ^ 24) :
    (∃ w, v.toSnapshot = .ok w ∧ fromBlock w.written = .ok v) ↔ v.NoObject := by
  constructor
  · rintro ⟨w, h1, h2⟩
    apply Classical.byContradiction
    intro ho
    obtain ⟨w', h1', h2'⟩ := C15_object_violated v hw h ho
    rw [h1] at h1'
    cases h1'
    rw [h2] at h2'
    cases h2'
  · intro ho
    exact C15_value_roundtrip_partial v hw ho (by omega)

/-- A concrete request that cannot be received: `{"a": true}`. -/
example : (JsValue.obj [("a", .tru)]).toSnapshot = .ok ⟨9, [13, 0, 1, 0, 0, 0, 1, 97, 6]⟩ ∧
    fromBlock [13, 0, 1, 0, 0, 0, 1, 97, 6] = .err "JsValue: Unknown data type prefix 0" :=
  ⟨rfl, rfl⟩

/-! ## C16: arbitrary bytes -/

/-- C16: for every byte string (shorter than 4 GiB) and every start offset the
decoder terminates: the budget given by the number of bytes is enough, so its
outcome is a value, an error or a bounds check panic; and when it yields a value
it consumed at least one byte and stayed inside the block. -/
theorem C16_decode_total (block : List UInt8) (off : Nat) (hb : block.length < 2 ^ 32)
    (ho : off ≤ block.length) :
    (decodeValue (block.length + 1) ⟨block, off⟩ = .panic ∨
     (∃ m, decodeValue (block.length + 1) ⟨block, off⟩ = .err m) ∨
     (∃ v off', decodeValue (block.length + 1) ⟨block, off⟩ = .ok (v, ⟨block, off'⟩) ∧
        off < off' ∧ off' ≤ block.length)) := by
  have h := tot_value (block.length + 1) ⟨block, off⟩ hb ho (by simp; omega)
  cases hd : decodeValue (block.length + 1) ⟨block, off⟩ with
  | panic => exact .inl rfl
  | err m => exact .inr (.inl ⟨m, rfl⟩)
  | fuel => exact absurd hd h.1
  | ok p =>
    obtain ⟨v, b', off'⟩ := p
    obtain ⟨h1, h2, h3⟩ := h.2 v _ hd
    simp only at h1 h2 h3
    subst h1
    exact .inr (.inr ⟨v, off', rfl, h2, h3⟩)

/-- C16 for the `JsJson` decoder. -/
theorem C16_decode_json_total (block : List UInt8) (off : Nat) (hb : block.length < 2 ^ 32)
    (ho : off ≤ block.length) :
    (decodeJson (block.length + 1) ⟨block, off⟩ = .panic ∨
     (∃ m, decodeJson (block.length + 1) ⟨block, off⟩ = .err m) ∨
     (∃ v off', decodeJson (block.length + 1) ⟨block, off⟩ = .ok (v, ⟨block, off'⟩) ∧
        off < off' ∧ off' ≤ block.length)) := by
  have h := tot_json (block.length + 1) ⟨block, off⟩ hb ho (by simp; omega)
  cases hd : decodeJson (block.length + 1) ⟨block, off⟩ with
  | panic => exact .inl rfl
  | err m => exact .inr (.inl ⟨m, rfl⟩)
  | fuel => exact absurd hd h.1
  | ok p =>
    obtain ⟨v, b', off'⟩ := p
    obtain ⟨h1, h2, h3⟩ := h.2 v _ hd
    simp only at h1 h2 h3
    subst h1
    exact .inr (.inr ⟨v, off', rfl, h2, h3⟩)

/-- All three outcomes occur: a value, an error, a panic on truncated input. -/
example : fromBlock [12, 0, 0, 0, 1, 6] = .ok (.list [.tru]) ∧
    fromBlock [99] = .err "JsValue: Unknown data type prefix 99" ∧
    fromBlock [11, 0, 0, 0, 9, 65] = .panic := ⟨rfl, rfl, rfl⟩

/-! ## C17: Rust and TypeScript agree -/

/-- C17, same bytes: what TypeScript writes for a value is byte for byte what Rust
writes for it (and neither side throws or panics). -/
theorem C17_same_bytes (v : JsValue) (h : v.wireLen < 2 ^ 32) :
    ∃ w, v.toSnapshot = .ok w ∧ Ts.saveToBuffer v = .ok w.written := by
  obtain ⟨h1, h2⟩ := toSnapshot_eq v h
  refine ⟨_, h1, ?_⟩
  simpa using Ts.saveToBuffer_eq v

/-- C17, Rust to TypeScript (partial): the block Rust writes, found anywhere in the
wasm memory, is decoded by TypeScript to the same value.  Missing: strings that
start with U+FEFF and keys `__proto__`, see `C17_bom_violated`,
`C17_proto_violated`. -/
theorem C17_rust_to_ts_partial (lossy : List UInt8 → String) (v : JsValue) (hw : v.WF)
    (hj : Ts.JsSafe v) (h : v.wireLen < 2 ^ 32) (mem : List UInt8) (ptr : Nat) (w : MemWrite)
    (hsnap : v.toSnapshot = .ok w) (post : List UInt8) (hmem : mem.drop ptr = w.written ++ post)
    (hptr : ptr ≤ mem.length) :
    Ts.jsValueDecode lossy mem ptr w.size = v := by
  obtain ⟨w', h1, h2, h3, h4⟩ := C14_size_exact v h
  rw [hsnap] at h1
  cases h1
  obtain ⟨w'', g1, g2⟩ := C17_same_bytes v h
  rw [hsnap] at g1
  cases g1
  rw [Ts.saveToBuffer_eq] at g2
  injection g2 with g2
  have hl : mem.length - ptr = w.written.length + post.length := by
    rw [← List.length_drop, hmem, List.length_append]
  have hd := Ts.depthT_le v
  have hr := Ts.reads_value lossy v (w.size + 1) (by omega) hw hj h mem ptr w.size 0 post
    (by rw [g2]; exact hmem) (by rw [g2]; omega)
  unfold Ts.jsValueDecode
  rw [if_pos (by omega), hr]

example (lossy : List UInt8 → String) (w : MemWrite) (hs : sampleValue.toSnapshot = .ok w) :
    Ts.jsValueDecode lossy ([1, 2, 3] ++ w.written ++ [4]) 3 w.size = sampleValue := by
  refine C17_rust_to_ts_partial lossy sampleValue sampleValue_wf.1 ?_ (by rw [sampleValue_len]; decide)
    _ 3 w hs [4] (by simp) (by simp)
  simp only [sampleValue, sampleJson, Ts.JsSafe, Ts.JsSafeL, Ts.JsSafeJ, Ts.JsSafeJO, Ts.JsSafeJL,
    Ts.JsSafeO]
  decide

/-- C17, TypeScript to Rust (partial): what TypeScript writes Rust reads back,
for values without a non-empty object.  For values with one Rust reports an error
(`C15_object_violated` together with `C17_same_bytes`). -/
theorem C17_ts_to_rust_partial (v : JsValue) (hw : v.WF) (ho : v.NoObject)
    (h : v.wireLen + 1 < 2 ^ 32) :
    ∃ bytes, Ts.saveToBuffer v = .ok bytes ∧ fromBlock bytes = .ok v := by
  obtain ⟨w, h1, h2⟩ := C17_same_bytes v (by omega)
  obtain ⟨w', g1, g2⟩ := C15_value_roundtrip_partial v hw ho h
  rw [h1] at g1
  cases g1
  exact ⟨_, h2, g2⟩

/-- An object sent by TypeScript is never accepted by Rust. -/
theorem C17_ts_object_violated (v : JsValue) (hw : v.WF) (ho : ¬ v.NoObject)
    (h : v.wireLen < 2 ^ 24) :
    ∃ bytes, Ts.saveToBuffer v = .ok bytes ∧
      fromBlock bytes = .err "JsValue: Unknown data type prefix 0" := by
  obtain ⟨w, h1, h2⟩ := C17_same_bytes v (by omega)
  obtain ⟨w', g1, g2⟩ := C15_object_violated v hw h ho
  rw [h1] at g1
  cases g1
  exact ⟨_, h2, g2⟩

/-- A Rust string starting with a byte order mark arrives without it. -/
theorem C17_bom_violated (lossy : List UInt8 → String) :
    (JsValue.str "﻿ab").toSnapshot = .ok ⟨10, [11, 0, 0, 0, 5, 0xEF, 0xBB, 0xBF, 97, 98]⟩ ∧
    Ts.jsValueDecode lossy [11, 0, 0, 0, 5, 0xEF, 0xBB, 0xBF, 97, 98] 0 10 = .str "ab" := by
  refine ⟨rfl, ?_⟩
  have : ∀ lossy : List UInt8 → String, Ts.textDecode lossy [0xEF, 0xBB, 0xBF, 97, 98] = "ab" := by
    intro lossy
    have h : fromUtf8 [97, 98] = some "ab" := by decide
    simp [Ts.textDecode, Ts.bom, h]
  exact congrArg JsValue.str (this lossy)

/-- An entry with the key `__proto__` is dropped by the TypeScript decoder. -/
theorem C17_proto_violated (lossy : List UInt8 → String) :
    ∃ w, (JsValue.json (.obj [("__proto__", .null)])).toSnapshot = .ok w ∧
      Ts.jsValueDecode lossy w.written 0 w.size = .json (.obj []) := by
  refine ⟨⟨18, [14, 7, 0, 1, 0, 0, 0, 9, 95, 95, 112, 114, 111, 116, 111, 95, 95, 3]⟩, rfl, ?_⟩
  have h : fromUtf8 [95, 95, 112, 114, 111, 116, 111, 95, 95] = some "__proto__" := by decide
  have ht : ∀ lossy : List UInt8 → String,
      Ts.textDecode lossy [95, 95, 112, 114, 111, 116, 111, 95, 95] = "__proto__" := by
    intro lossy
    simp [Ts.textDecode, Ts.bom, h]
  have e : Ts.jsValueDecode lossy
      [14, 7, 0, 1, 0, 0, 0, 9, 95, 95, 112, 114, 111, 116, 111, 95, 95, 3] 0 18 =
      .json (.obj (Ts.objSet [] (Ts.textDecode lossy [95, 95, 112, 114, 111, 116, 111, 95, 95]) .null)) := rfl
  rw [e, ht]
  rfl

end Verif.Codec
