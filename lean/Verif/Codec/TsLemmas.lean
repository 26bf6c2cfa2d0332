import Verif.Codec.Total
import Verif.Codec.Ts
import Verif.Codec.TsSpec
/-! Helper lemmas: the TypeScript codec against the pure encoding. -/
namespace Verif.Codec.Ts
open Verif.Codec

/-! ### Sizes -/

mutual
theorem jsonSize_eq : ∀ j : JsJson, jsonSize j = j.wireLen
  | .tru | .fls | .null | .num _ => by simp [jsonSize, JsJson.wireLen]
  | .str s => by simp [jsonSize, JsJson.wireLen, getStringSize, strBytes_length]
  | .list l => by simp [jsonSize, JsJson.wireLen, jsonSizeL_eq l]
  | .obj l => by simp [jsonSize, JsJson.wireLen, jsonSizeO_eq l]
theorem jsonSizeL_eq : ∀ (l : List JsJson) s, jsonSizeL s l = s + JsJson.wireLenL l
  | [], s => by simp [jsonSizeL, JsJson.wireLenL]
  | x :: xs, s => by simp [jsonSizeL, JsJson.wireLenL, jsonSizeL_eq xs, jsonSize_eq x]; omega
theorem jsonSizeO_eq : ∀ (l : List (String × JsJson)) s, jsonSizeO s l = s + JsJson.wireLenO l
  | [], s => by simp [jsonSizeO, JsJson.wireLenO]
  | (k, v) :: xs, s => by
      simp [jsonSizeO, JsJson.wireLenO, jsonSizeO_eq xs, jsonSize_eq v, getStringSize,
        strBytes_length]; omega
end

mutual
theorem valueSize_eq : ∀ j : JsValue, valueSize j = j.wireLen
  | .tru | .fls | .null | .undefined | .f64 _ | .u64 _ | .i64 _ | .u32 _ | .i32 _ | .vec _ => by
      simp [valueSize, JsValue.wireLen]
  | .str s => by simp [valueSize, JsValue.wireLen, getStringSize, strBytes_length]
  | .json j => by simp [valueSize, JsValue.wireLen, jsonSize_eq]
  | .list l => by simp [valueSize, JsValue.wireLen, valueSizeL_eq l]
  | .obj l => by simp [valueSize, JsValue.wireLen, valueSizeO_eq l]
theorem valueSizeL_eq : ∀ (l : List JsValue) s, valueSizeL s l = s + JsValue.wireLenL l
  | [], s => by simp [valueSizeL, JsValue.wireLenL]
  | x :: xs, s => by simp [valueSizeL, JsValue.wireLenL, valueSizeL_eq xs, valueSize_eq x]; omega
theorem valueSizeO_eq : ∀ (l : List (String × JsValue)) s,
    valueSizeO s l = s + JsValue.wireLenO l
  | [], s => by simp [valueSizeO, JsValue.wireLenO]
  | (k, v) :: xs, s => by
      simp [valueSizeO, JsValue.wireLenO, valueSizeO_eq xs, valueSize_eq v, getStringSize,
        strBytes_length]; omega
end

/-! ### Writing -/

def Writes (f : WCursor → Out WCursor) (e : List UInt8) : Prop :=
  ∀ c : WCursor, c.written.length + e.length ≤ c.size →
    f c = .ok { c with written := c.written ++ e }

theorem Writes.raw (e : List UInt8) : Writes (fun w => w.set e) e := by
  intro w h; simp [WCursor.set, h]

theorem Writes.seq {f g : WCursor → Out WCursor} {a b : List UInt8}
    (hf : Writes f a) (hg : Writes g b) : Writes (fun w => f w >>= g) (a ++ b) := by
  intro w h
  simp only [List.length_append] at h
  simp only
  rw [hf w (by omega), Out.bind_ok, hg _ (by simp; omega)]
  simp

theorem Writes.nil : Writes (fun w => .ok w) [] := by
  intro w _; simp

theorem Writes.buf (b : List UInt8) :
    Writes (fun c => c.setBuffer b) (be32 (UInt32.ofNat b.length) ++ b) := by
  intro w h
  simp only [List.length_append, be32_length] at h
  have : w.written.length + 4 ≤ w.size := by omega
  simp [WCursor.setBuffer, WCursor.set, this]

theorem Writes.str (s : String) : Writes (fun c => c.setString s) (encStr s) :=
  Writes.buf (strBytes s)

mutual
theorem writesJ : ∀ j : JsJson, Writes (saveJson j) (encJ j)
  | .tru => Writes.raw _
  | .fls => Writes.raw _
  | .null => Writes.raw _
  | .str s => Writes.seq (Writes.raw _) (Writes.str s)
  | .num b => Writes.seq (Writes.raw _) (Writes.raw _)
  | .list l => Writes.seq (Writes.raw _) (Writes.seq (Writes.raw _) (writesJL l))
  | .obj l => Writes.seq (Writes.raw _) (Writes.seq (Writes.raw _) (writesJO l))
theorem writesJL : ∀ l : List JsJson, Writes (saveJsonL l) (encJL l)
  | [] => Writes.nil
  | x :: xs => Writes.seq (writesJ x) (writesJL xs)
theorem writesJO : ∀ l : List (String × JsJson), Writes (saveJsonO l) (encJO l)
  | [] => Writes.nil
  | (k, v) :: xs => Writes.seq (Writes.str k) (Writes.seq (writesJ v) (writesJO xs))
end

mutual
theorem writesV : ∀ j : JsValue, Writes (saveValue j) (encV j)
  | .tru => Writes.raw _
  | .fls => Writes.raw _
  | .null => Writes.raw _
  | .undefined => Writes.raw _
  | .u32 _ => Writes.seq (Writes.raw _) (Writes.raw _)
  | .i32 _ => Writes.seq (Writes.raw _) (Writes.raw _)
  | .u64 _ => Writes.seq (Writes.raw _) (Writes.raw _)
  | .i64 _ => Writes.seq (Writes.raw _) (Writes.raw _)
  | .f64 _ => Writes.seq (Writes.raw _) (Writes.raw _)
  | .vec b => Writes.seq (Writes.raw _) (Writes.buf b)
  | .str s => Writes.seq (Writes.raw _) (Writes.str s)
  | .list l => Writes.seq (Writes.raw _) (Writes.seq (Writes.raw _) (writesVL l))
  | .obj l => Writes.seq (Writes.raw _) (Writes.seq (Writes.raw _) (writesVO l))
  | .json j => Writes.seq (Writes.raw _) (writesJ j)
theorem writesVL : ∀ l : List JsValue, Writes (saveValueL l) (encVL l)
  | [] => Writes.nil
  | x :: xs => Writes.seq (writesV x) (writesVL xs)
theorem writesVO : ∀ l : List (String × JsValue), Writes (saveValueO l) (encVO l)
  | [] => Writes.nil
  | (k, v) :: xs => Writes.seq (Writes.str k) (Writes.seq (writesV v) (writesVO xs))
end

theorem saveToBuffer_eq (v : JsValue) : saveToBuffer v = .ok (encV v) := by
  have := writesV v ⟨valueSize v, []⟩ (by simp [valueSize_eq, encV_length])
  simp only [saveToBuffer, this, Out.bind_ok]
  simp [valueSize_eq, encV_length]

/-! ### Reading -/

def Reads {α} (f : Cursor → Out (α × Cursor)) (e : List UInt8) (a : α) : Prop :=
  ∀ (mem : List UInt8) (ptr size p : Nat) (post : List UInt8),
    mem.drop (ptr + p) = e ++ post → p + e.length ≤ size →
    f ⟨mem, ptr, size, p⟩ = .ok (a, ⟨mem, ptr, size, p + e.length⟩)

theorem drop_step' {α} {mem e post : List α} {k : Nat} (h : mem.drop k = e ++ post) :
    mem.drop (k + e.length) = post := by
  rw [← List.drop_drop, h]; simp

theorem Reads.bind {α β} {f : Cursor → Out (α × Cursor)} {g : α × Cursor → Out (β × Cursor)}
    {e1 e2 : List UInt8} {a : α} {b : β} (hf : Reads f e1 a)
    (hg : Reads (fun r => g (a, r)) e2 b) : Reads (fun r => f r >>= g) (e1 ++ e2) b := by
  intro mem ptr size p post hd hle
  simp only [List.length_append] at hle
  have hd' : mem.drop (ptr + p) = e1 ++ (e2 ++ post) := by rw [hd, List.append_assoc]
  have hs := drop_step' hd'
  simp only
  rw [hf mem ptr size p (e2 ++ post) hd' (by omega)]
  simp only [Out.bind_ok]
  have h2 := hg mem ptr size (p + e1.length) post (by rw [← hs, Nat.add_assoc]) (by omega)
  simp only at h2
  rw [h2]
  simp [Nat.add_assoc]

theorem Reads.ret {α} (a : α) : Reads (fun r => .ok (a, r)) [] a := by
  intro mem ptr size p post _ _; simp

theorem Reads.map {α β} {f : Cursor → Out (α × Cursor)} {g : α → β}
    {e : List UInt8} {a : α} (hf : Reads f e a) :
    Reads (fun r => f r >>= fun p => .ok (g p.1, p.2)) e (g a) := by
  intro mem ptr size p post hd hle
  simp only
  rw [hf mem ptr size p post hd hle]
  simp

theorem at_eq {mem : List UInt8} {ptr size p n : Nat} {e : List UInt8}
    (h : mem.drop (ptr + p) = e) (hn : p + n ≤ size) (i : Nat) :
    (⟨mem, ptr, size, p⟩ : Cursor).at n i = match e[i]? with
      | some b => .ok b | none => .panic := by
  have : mem[ptr + p + i]? = e[i]? := by rw [← h, List.getElem?_drop]
  simp only [Cursor.at, hn, if_true, this]
  cases e[i]? <;> rfl

theorem reads_byte (b : UInt8) : Reads getByte [b] b := by
  intro mem ptr size p post hd hle
  simp only [getByte]
  rw [at_eq hd (by simpa using hle)]
  simp [Cursor.adv]

theorem reads_u16 (v : UInt16) : Reads getU16 (be16 v) v := by
  intro mem ptr size p post hd hle
  simp only [be16_length] at hle
  simp only [getU16]
  rw [at_eq hd hle, at_eq hd hle]
  simp [be16, Cursor.adv]
  exact ofBe16_be16 v

theorem reads_u32 (v : UInt32) : Reads getU32 (be32 v) v := by
  intro mem ptr size p post hd hle
  simp only [be32_length] at hle
  simp only [getU32]
  rw [at_eq hd hle, at_eq hd hle, at_eq hd hle, at_eq hd hle]
  simp only [be32, List.cons_append, List.getElem?_cons_zero, List.getElem?_cons_succ, Out.bind_ok,
    Out.pure_eq, ofBe32_be32]
  rfl

theorem reads_i32 (v : Int32) : Reads getI32 (be32 v.toUInt32) v :=
  Reads.map (g := UInt32.toInt32) (reads_u32 v.toUInt32)

theorem reads_u64 (v : UInt64) : Reads getU64 (be64 v) v := by
  intro mem ptr size p post hd hle
  simp only [be64_length] at hle
  simp only [getU64]
  rw [at_eq hd hle, at_eq hd hle, at_eq hd hle, at_eq hd hle, at_eq hd hle, at_eq hd hle,
    at_eq hd hle, at_eq hd hle]
  simp only [be64, List.cons_append, List.getElem?_cons_zero, List.getElem?_cons_succ, Out.bind_ok,
    Out.pure_eq, ofBe64_be64]
  rfl

theorem reads_i64 (v : Int64) : Reads getI64 (be64 v.toUInt64) v :=
  Reads.map (g := UInt64.toInt64) (reads_u64 v.toUInt64)

theorem reads_buffer (b : List UInt8) (hb : b.length < 2 ^ 32) :
    Reads getBuffer (be32 (UInt32.ofNat b.length) ++ b) b := by
  refine Reads.bind (reads_u32 _) ?_
  intro mem ptr size p post hd hle
  have h1 : (UInt32.ofNat b.length).toNat = b.length := by simp; omega
  simp only [h1, Cursor.adv, hd]
  simp

theorem textDecode_eq (lossy) (s : String) (h : ¬ bom <+: strBytes s) :
    textDecode lossy (strBytes s) = s := by
  have : bom.isPrefixOf (strBytes s) = false := by
    rw [Bool.eq_false_iff, ne_eq, List.isPrefixOf_iff_prefix]; exact h
  simp [textDecode, this, fromUtf8_strBytes]

theorem reads_string (lossy) (s : String) (hs : s.utf8ByteSize < 2 ^ 32)
    (hb : ¬ bom <+: strBytes s) : Reads (getString lossy) (encStr s) s := by
  have h := Reads.map (g := textDecode lossy)
    (reads_buffer (strBytes s) (by rw [strBytes_length]; exact hs))
  rw [textDecode_eq lossy s hb] at h
  exact h

theorem objSet_new {β} (l : List (String × β)) (k : String) (v : β)
    (h : k ∉ l.map (·.1)) (hp : k ≠ "__proto__") : objSet l k v = l ++ [(k, v)] := by
  simp [objSet, hp, mapInsert_new l k v h]

mutual
theorem reads_json (lossy) : ∀ (j : JsJson) (fuel : Nat), depthJ j ≤ fuel → j.WF → JsSafeJ j →
    j.wireLen < 2 ^ 32 → Reads (decodeJson lossy fuel) (encJ j) j
  | j, 0, h, _, _, _ => by
      have : 1 ≤ depthJ j := by cases j <;> simp [depthJ]
      omega
  | .tru, f+1, _, _, _, _ => Reads.bind (e2 := []) (reads_byte _) (Reads.ret _)
  | .fls, f+1, _, _, _, _ => Reads.bind (e2 := []) (reads_byte _) (Reads.ret _)
  | .null, f+1, _, _, _, _ => Reads.bind (e2 := []) (reads_byte _) (Reads.ret _)
  | .str s, f+1, _, _, hj, hl =>
      Reads.bind (reads_byte _) (Reads.map (g := JsJson.str)
        (reads_string lossy s (by simp [JsJson.wireLen] at hl; omega) hj))
  | .num b, f+1, _, _, _, _ =>
      Reads.bind (reads_byte _) (Reads.map (g := JsJson.num) (reads_u64 b))
  | .list l, f+1, h, hw, hj, hl => by
      have hlen := wireLenL_ge l
      simp [JsJson.wireLen] at hl
      have hn : (UInt32.ofNat l.length).toNat = l.length := by simp; omega
      refine Reads.bind (reads_byte _) (Reads.bind (reads_u32 _) (Reads.map (g := JsJson.list) ?_))
      simp only [hn]
      exact reads_jsonL lossy l f [] (by simp [depthJ] at h; omega) (by simpa [JsJson.WF] using hw)
        (by simpa [JsSafeJ] using hj) (by omega)
  | .obj l, f+1, h, hw, hj, hl => by
      simp [JsJson.wireLen] at hl
      simp only [JsJson.WF] at hw
      have hn : (UInt16.ofNat l.length).toNat = l.length := by simp; omega
      refine Reads.bind (reads_byte _) (Reads.bind (reads_u16 _) (Reads.map (g := JsJson.obj) ?_))
      simp only [hn]
      exact reads_jsonO lossy l f [] (by simp [depthJ] at h; omega) hw.2.2
        (by simpa [JsSafeJ] using hj) (by omega) (by simpa using hw.1)
theorem reads_jsonL (lossy) : ∀ (l : List JsJson) (fuel : Nat) (acc : List JsJson),
    depthJL l ≤ fuel → JsJson.WFL l → JsSafeJL l → JsJson.wireLenL l < 2 ^ 32 →
    Reads (readList (decodeJson lossy fuel) l.length acc) (encJL l) (acc ++ l)
  | [], fuel, acc, _, _, _, _ => by simpa [readList, encJL] using Reads.ret acc
  | x :: xs, fuel, acc, h, hw, hj, hl => by
      simp only [depthJL, JsJson.WFL, JsJson.wireLenL, JsSafeJL] at h hw hl hj
      have h2 := reads_jsonL lossy xs fuel (acc ++ [x]) (by omega) hw.2 hj.2 (by omega)
      simp only [List.append_assoc, List.singleton_append] at h2
      exact Reads.bind (reads_json lossy x fuel (by omega) hw.1 hj.1 (by omega)) h2
theorem reads_jsonO (lossy) : ∀ (l : List (String × JsJson)) (fuel : Nat)
    (acc : List (String × JsJson)),
    depthJO l ≤ fuel → JsJson.WFO l → JsSafeJO l → JsJson.wireLenO l < 2 ^ 32 →
    ((acc ++ l).map (·.1)).Nodup →
    Reads (readObj (getString lossy) (decodeJson lossy fuel) l.length acc) (encJO l) (acc ++ l)
  | [], fuel, acc, _, _, _, _, _ => by simpa [readObj, encJO] using Reads.ret acc
  | (k, v) :: xs, fuel, acc, h, hw, hj, hl, hnd => by
      simp only [depthJO, JsJson.WFO, JsJson.wireLenO, JsSafeJO] at h hw hl hj
      have hk : k ∉ acc.map (·.1) := by
        intro hmem
        rw [List.map_append, List.nodup_append] at hnd
        exact hnd.2.2 k hmem k (by simp) rfl
      have h2 := reads_jsonO lossy xs fuel (acc ++ [(k, v)]) (by omega) hw.2 hj.2.2.2 (by omega)
        (by simpa using hnd)
      simp only [List.append_assoc, List.singleton_append] at h2
      refine Reads.bind (reads_string lossy k (by omega) hj.1)
        (Reads.bind (reads_json lossy v fuel (by omega) hw.1 hj.2.2.1 (by omega)) ?_)
      simp only
      rw [objSet_new acc k v hk hj.2.1]
      exact h2
end

mutual
/-- Nesting depth as seen by the TypeScript decoder (which does enter objects). -/
def depthT : JsValue → Nat
  | .list l => 1 + depthTL l
  | .obj l => 1 + depthTO l
  | .json j => 1 + depthJ j
  | _ => 1
def depthTL : List JsValue → Nat
  | [] => 0
  | x :: xs => max (depthT x) (depthTL xs)
def depthTO : List (String × JsValue) → Nat
  | [] => 0
  | (_, x) :: xs => max (depthT x) (depthTO xs)
end

mutual
theorem depthT_le : ∀ j, depthT j ≤ j.wireLen
  | .tru | .fls | .null | .undefined | .str _ | .u32 _ | .i32 _ | .u64 _ | .i64 _ | .f64 _
  | .vec _ => by simp [depthT, JsValue.wireLen] <;> omega
  | .list l => by have := depthTL_le l; simp [depthT, JsValue.wireLen]; omega
  | .obj l => by have := depthTO_le l; simp [depthT, JsValue.wireLen]; omega
  | .json j => by have := depthJ_le j; simp [depthT, JsValue.wireLen]; omega
theorem depthTL_le : ∀ l, depthTL l ≤ JsValue.wireLenL l
  | [] => by simp [depthTL]
  | x :: xs => by
      have := depthT_le x; have := depthTL_le xs; simp [depthTL, JsValue.wireLenL]; omega
theorem depthTO_le : ∀ l, depthTO l ≤ JsValue.wireLenO l
  | [] => by simp [depthTO]
  | (_, x) :: xs => by
      have := depthT_le x; have := depthTO_le xs; simp [depthTO, JsValue.wireLenO]; omega
end

mutual
theorem reads_value (lossy) : ∀ (j : JsValue) (fuel : Nat), depthT j ≤ fuel → j.WF → JsSafe j →
    j.wireLen < 2 ^ 32 → Reads (decodeValue lossy fuel) (encV j) j
  | j, 0, h, _, _, _ => by
      have : 1 ≤ depthT j := by cases j <;> simp [depthT]
      omega
  | .tru, f+1, _, _, _, _ => Reads.bind (e2 := []) (reads_byte _) (Reads.ret _)
  | .fls, f+1, _, _, _, _ => Reads.bind (e2 := []) (reads_byte _) (Reads.ret _)
  | .null, f+1, _, _, _, _ => Reads.bind (e2 := []) (reads_byte _) (Reads.ret _)
  | .undefined, f+1, _, _, _, _ => Reads.bind (e2 := []) (reads_byte _) (Reads.ret _)
  | .u32 v, f+1, _, _, _, _ => Reads.bind (reads_byte _) (Reads.map (g := JsValue.u32) (reads_u32 v))
  | .i32 v, f+1, _, _, _, _ => Reads.bind (reads_byte _) (Reads.map (g := JsValue.i32) (reads_i32 v))
  | .u64 v, f+1, _, _, _, _ => Reads.bind (reads_byte _) (Reads.map (g := JsValue.u64) (reads_u64 v))
  | .i64 v, f+1, _, _, _, _ => Reads.bind (reads_byte _) (Reads.map (g := JsValue.i64) (reads_i64 v))
  | .f64 v, f+1, _, _, _, _ => Reads.bind (reads_byte _) (Reads.map (g := JsValue.f64) (reads_u64 v))
  | .vec b, f+1, _, _, _, hl =>
      Reads.bind (reads_byte _) (Reads.map (g := JsValue.vec)
        (reads_buffer b (by simp [JsValue.wireLen] at hl; omega)))
  | .str s, f+1, _, _, hj, hl =>
      Reads.bind (reads_byte _) (Reads.map (g := JsValue.str)
        (reads_string lossy s (by simp [JsValue.wireLen] at hl; omega) hj))
  | .list l, f+1, h, hw, hj, hl => by
      have hlen := wireLenVL_ge l
      simp [JsValue.wireLen] at hl
      have hn : (UInt32.ofNat l.length).toNat = l.length := by simp; omega
      refine Reads.bind (reads_byte _) (Reads.bind (reads_u32 _) (Reads.map (g := JsValue.list) ?_))
      simp only [hn]
      exact reads_valueL lossy l f [] (by simp [depthT] at h; omega)
        (by simpa [JsValue.WF] using hw) (by simpa [JsSafe] using hj) (by omega)
  | .obj l, f+1, h, hw, hj, hl => by
      simp [JsValue.wireLen] at hl
      simp only [JsValue.WF] at hw
      have hn : (UInt16.ofNat l.length).toNat = l.length := by simp; omega
      refine Reads.bind (reads_byte _) (Reads.bind (reads_u16 _) (Reads.map (g := JsValue.obj) ?_))
      simp only [hn]
      exact reads_valueO lossy l f [] (by simp [depthT] at h; omega) hw.2.2
        (by simpa [JsSafe] using hj) (by omega) (by simpa using hw.1)
  | .json j, f+1, h, hw, hj, hl =>
      Reads.bind (reads_byte _) (Reads.map (g := JsValue.json)
        (reads_json lossy j f (by simp [depthT] at h; omega) (by simpa [JsValue.WF] using hw)
          (by simpa [JsSafe] using hj) (by simp [JsValue.wireLen] at hl; omega)))
theorem reads_valueL (lossy) : ∀ (l : List JsValue) (fuel : Nat) (acc : List JsValue),
    depthTL l ≤ fuel → JsValue.WFL l → JsSafeL l → JsValue.wireLenL l < 2 ^ 32 →
    Reads (readList (decodeValue lossy fuel) l.length acc) (encVL l) (acc ++ l)
  | [], fuel, acc, _, _, _, _ => by simpa [readList, encVL] using Reads.ret acc
  | x :: xs, fuel, acc, h, hw, hj, hl => by
      simp only [depthTL, JsValue.WFL, JsValue.wireLenL, JsSafeL] at h hw hl hj
      have h2 := reads_valueL lossy xs fuel (acc ++ [x]) (by omega) hw.2 hj.2 (by omega)
      simp only [List.append_assoc, List.singleton_append] at h2
      exact Reads.bind (reads_value lossy x fuel (by omega) hw.1 hj.1 (by omega)) h2
theorem reads_valueO (lossy) : ∀ (l : List (String × JsValue)) (fuel : Nat)
    (acc : List (String × JsValue)),
    depthTO l ≤ fuel → JsValue.WFO l → JsSafeO l → JsValue.wireLenO l < 2 ^ 32 →
    ((acc ++ l).map (·.1)).Nodup →
    Reads (readObj (getString lossy) (decodeValue lossy fuel) l.length acc) (encVO l) (acc ++ l)
  | [], fuel, acc, _, _, _, _, _ => by simpa [readObj, encVO] using Reads.ret acc
  | (k, v) :: xs, fuel, acc, h, hw, hj, hl, hnd => by
      simp only [depthTO, JsValue.WFO, JsValue.wireLenO, JsSafeO] at h hw hl hj
      have hk : k ∉ acc.map (·.1) := by
        intro hmem
        rw [List.map_append, List.nodup_append] at hnd
        exact hnd.2.2 k hmem k (by simp) rfl
      have h2 := reads_valueO lossy xs fuel (acc ++ [(k, v)]) (by omega) hw.2 hj.2.2.2 (by omega)
        (by simpa using hnd)
      simp only [List.append_assoc, List.singleton_append] at h2
      refine Reads.bind (reads_string lossy k (by omega) hj.1)
        (Reads.bind (reads_value lossy v fuel (by omega) hw.1 hj.2.2.1 (by omega)) ?_)
      simp only
      rw [objSet_new acc k v hk hj.2.1]
      exact h2
end

end Verif.Codec.Ts
