import Verif.Codec.Spec
/-! Helper lemmas for the codec. -/
namespace Verif.Codec

@[simp] theorem Out.bind_ok {α β} (a : α) (f : α → Out β) : (Out.ok a >>= f) = f a := rfl
@[simp] theorem Out.bind_err {α β} (m) (f : α → Out β) : (Out.err m >>= f) = Out.err m := rfl
@[simp] theorem Out.bind_panic {α β} (f : α → Out β) : ((Out.panic : Out α) >>= f) = Out.panic := rfl
@[simp] theorem Out.bind_fuel {α β} (f : α → Out β) : ((Out.fuel : Out α) >>= f) = Out.fuel := rfl
@[simp] theorem Out.pure_eq {α} (a : α) : (pure a : Out α) = Out.ok a := rfl

theorem Out.bind_eq_ok {α β} {x : Out α} {f : α → Out β} {b : β} :
    (x >>= f) = .ok b ↔ ∃ a, x = .ok a ∧ f a = .ok b := by
  cases x <;> simp

theorem Out.bind_ne_fuel {α β} {x : Out α} {f : α → Out β}
    (h : x ≠ .fuel) (h2 : ∀ a, x = .ok a → f a ≠ .fuel) : (x >>= f) ≠ .fuel := by
  cases x <;> simp_all

theorem strBytes_length (s : String) : (strBytes s).length = s.utf8ByteSize := rfl

theorem fromUtf8_strBytes (s : String) : fromUtf8 (strBytes s) = some s := by
  unfold fromUtf8 strBytes String.fromUTF8?
  simp only [Array.toArray_toList]
  have : (⟨s.toByteArray.data⟩ : ByteArray).IsValidUTF8 := s.isValidUTF8
  simp [this, String.fromUTF8]

theorem ofBe16_be16 (v : UInt16) :
    ofBe16 (UInt8.ofNat (v.toNat / 2 ^ 8)) (UInt8.ofNat v.toNat) = v := by
  have hv := v.toNat_lt
  apply UInt16.toNat_inj.mp
  simp [ofBe16]
  omega

theorem ofBe32_be32 (v : UInt32) :
    ofBe32 (UInt8.ofNat (v.toNat / 2 ^ 24)) (UInt8.ofNat (v.toNat / 2 ^ 16))
      (UInt8.ofNat (v.toNat / 2 ^ 8)) (UInt8.ofNat v.toNat) = v := by
  have hv := v.toNat_lt
  apply UInt32.toNat_inj.mp
  simp [ofBe32]
  omega

theorem ofBe64_be64 (v : UInt64) :
    ofBe64 (UInt8.ofNat (v.toNat / 2 ^ 56)) (UInt8.ofNat (v.toNat / 2 ^ 48))
      (UInt8.ofNat (v.toNat / 2 ^ 40)) (UInt8.ofNat (v.toNat / 2 ^ 32))
      (UInt8.ofNat (v.toNat / 2 ^ 24)) (UInt8.ofNat (v.toNat / 2 ^ 16))
      (UInt8.ofNat (v.toNat / 2 ^ 8)) (UInt8.ofNat v.toNat) = v := by
  have hv := v.toNat_lt
  apply UInt64.toNat_inj.mp
  simp [ofBe64]
  omega

/-! ### Pure encoding -/

def encStr (s : String) : List UInt8 := be32 (UInt32.ofNat (strBytes s).length) ++ strBytes s

mutual
def encJ : JsJson → List UInt8
  | .tru => [1]
  | .fls => [2]
  | .null => [3]
  | .str s => [4] ++ encStr s
  | .num b => [5] ++ be64 b
  | .list l => [6] ++ (be32 (UInt32.ofNat l.length) ++ encJL l)
  | .obj l => [7] ++ (be16 (UInt16.ofNat l.length) ++ encJO l)
def encJL : List JsJson → List UInt8
  | [] => []
  | x :: xs => encJ x ++ encJL xs
def encJO : List (String × JsJson) → List UInt8
  | [] => []
  | (k, v) :: xs => encStr k ++ (encJ v ++ encJO xs)
end

mutual
def encV : JsValue → List UInt8
  | .u32 v => [1] ++ be32 v
  | .i32 v => [2] ++ be32 v.toUInt32
  | .u64 v => [3] ++ be64 v
  | .i64 v => [4] ++ be64 v.toUInt64
  | .f64 v => [5] ++ be64 v
  | .tru => [6]
  | .fls => [7]
  | .null => [8]
  | .undefined => [9]
  | .vec b => [10] ++ (be32 (UInt32.ofNat b.length) ++ b)
  | .str s => [11] ++ encStr s
  | .list l => [12] ++ (be32 (UInt32.ofNat l.length) ++ encVL l)
  | .obj l => [13] ++ (be16 (UInt16.ofNat l.length) ++ encVO l)
  | .json j => [14] ++ encJ j
def encVL : List JsValue → List UInt8
  | [] => []
  | x :: xs => encV x ++ encVL xs
def encVO : List (String × JsValue) → List UInt8
  | [] => []
  | (k, v) :: xs => encStr k ++ (encV v ++ encVO xs)
end

@[simp] theorem be16_length (v) : (be16 v).length = 2 := rfl
@[simp] theorem be32_length (v) : (be32 v).length = 4 := rfl
@[simp] theorem be64_length (v) : (be64 v).length = 8 := rfl
@[simp] theorem encStr_length (s) : (encStr s).length = 4 + s.utf8ByteSize := by
  simp [encStr, strBytes_length]

mutual
theorem encJ_length : ∀ j, (encJ j).length = j.wireLen
  | .tru | .fls | .null => by simp [encJ, JsJson.wireLen]
  | .str s => by simp [encJ, JsJson.wireLen]; omega
  | .num _ => by simp [encJ, JsJson.wireLen]
  | .list l => by simp [encJ, JsJson.wireLen, encJL_length l]; omega
  | .obj l => by simp [encJ, JsJson.wireLen, encJO_length l]; omega
theorem encJL_length : ∀ l, (encJL l).length = JsJson.wireLenL l
  | [] => rfl
  | x :: xs => by simp [encJL, JsJson.wireLenL, encJ_length x, encJL_length xs]
theorem encJO_length : ∀ l, (encJO l).length = JsJson.wireLenO l
  | [] => rfl
  | (k, v) :: xs => by
      simp [encJO, JsJson.wireLenO, encJ_length v, encJO_length xs]; omega
end

mutual
theorem encV_length : ∀ j, (encV j).length = j.wireLen
  | .tru | .fls | .null | .undefined => by simp [encV, JsValue.wireLen]
  | .u32 _ | .i32 _ | .u64 _ | .i64 _ | .f64 _ => by simp [encV, JsValue.wireLen]
  | .vec b => by simp [encV, JsValue.wireLen]; omega
  | .str s => by simp [encV, JsValue.wireLen]; omega
  | .list l => by simp [encV, JsValue.wireLen, encVL_length l]; omega
  | .obj l => by simp [encV, JsValue.wireLen, encVO_length l]; omega
  | .json j => by simp [encV, JsValue.wireLen, encJ_length j]; omega
theorem encVL_length : ∀ l, (encVL l).length = JsValue.wireLenL l
  | [] => rfl
  | x :: xs => by simp [encVL, JsValue.wireLenL, encV_length x, encVL_length xs]
theorem encVO_length : ∀ l, (encVO l).length = JsValue.wireLenO l
  | [] => rfl
  | (k, v) :: xs => by
      simp [encVO, JsValue.wireLenO, encV_length v, encVO_length xs]; omega
end

/-! ### get_size -/

theorem u32_ofNat_add (a b : Nat) : UInt32.ofNat (a + b) = UInt32.ofNat a + UInt32.ofNat b := by
  simp

mutual
theorem getSizeJ_eq : ∀ j : JsJson, j.getSize = UInt32.ofNat j.wireLen
  | .tru | .fls | .null => by simp [JsJson.getSize, JsJson.wireLen]
  | .str s => by simp [JsJson.getSize, JsJson.wireLen, strSize, strBytes_length]
  | .num _ => by simp [JsJson.getSize, JsJson.wireLen]
  | .list l => by
      simp [JsJson.getSize, JsJson.wireLen, getSizeJL_eq l]
  | .obj l => by simp [JsJson.getSize, JsJson.wireLen, getSizeJO_eq l]
theorem getSizeJL_eq : ∀ (l : List JsJson) (s : UInt32),
    JsJson.getSizeList s l = s + UInt32.ofNat (JsJson.wireLenL l)
  | [], s => by simp [JsJson.getSizeList, JsJson.wireLenL]
  | x :: xs, s => by
      simp [JsJson.getSizeList, JsJson.wireLenL, getSizeJL_eq xs, getSizeJ_eq x,
        UInt32.add_assoc]
theorem getSizeJO_eq : ∀ (l : List (String × JsJson)) (s : UInt32),
    JsJson.getSizeObj s l = s + UInt32.ofNat (JsJson.wireLenO l)
  | [], s => by simp [JsJson.getSizeObj, JsJson.wireLenO]
  | (k, v) :: xs, s => by
      simp [JsJson.getSizeObj, JsJson.wireLenO, getSizeJO_eq xs, getSizeJ_eq v, strSize,
        strBytes_length, UInt32.add_assoc]
end

mutual
theorem getSizeV_eq : ∀ j : JsValue, j.getSize = UInt32.ofNat j.wireLen
  | .tru | .fls | .null | .undefined => by simp [JsValue.getSize, JsValue.wireLen]
  | .u32 _ | .i32 _ | .u64 _ | .i64 _ | .f64 _ => by simp [JsValue.getSize, JsValue.wireLen]
  | .str s => by simp [JsValue.getSize, JsValue.wireLen, strSize, strBytes_length]
  | .vec _ => by simp [JsValue.getSize, JsValue.wireLen]
  | .list l => by
      simp [JsValue.getSize, JsValue.wireLen, getSizeVL_eq l]
  | .obj l => by simp [JsValue.getSize, JsValue.wireLen, getSizeVO_eq l]
  | .json j => by simp [JsValue.getSize, JsValue.wireLen, getSizeJ_eq j]
theorem getSizeVL_eq : ∀ (l : List JsValue) (s : UInt32),
    JsValue.getSizeList s l = s + UInt32.ofNat (JsValue.wireLenL l)
  | [], s => by simp [JsValue.getSizeList, JsValue.wireLenL]
  | x :: xs, s => by
      simp [JsValue.getSizeList, JsValue.wireLenL, getSizeVL_eq xs, getSizeV_eq x,
        UInt32.add_assoc]
theorem getSizeVO_eq : ∀ (l : List (String × JsValue)) (s : UInt32),
    JsValue.getSizeObj s l = s + UInt32.ofNat (JsValue.wireLenO l)
  | [], s => by simp [JsValue.getSizeObj, JsValue.wireLenO]
  | (k, v) :: xs, s => by
      simp [JsValue.getSizeObj, JsValue.wireLenO, getSizeVO_eq xs, getSizeV_eq v, strSize,
        strBytes_length, UInt32.add_assoc]
end

/-! ### Writing -/

/-- `f` appends exactly `e` if it fits in the block and panics otherwise. -/
def Writes (f : MemWrite → Out MemWrite) (e : List UInt8) : Prop :=
  ∀ w : MemWrite, w.written.length + e.length < 2 ^ 32 → w.written.length ≤ w.size →
    f w = if w.written.length + e.length ≤ w.size
      then .ok { w with written := w.written ++ e } else .panic

theorem Writes.raw (e : List UInt8) : Writes (fun w => w.write e) e := by
  intro w h _
  simp [MemWrite.write, Nat.mod_eq_of_lt h]

theorem Writes.seq {f g : MemWrite → Out MemWrite} {a b : List UInt8}
    (hf : Writes f a) (hg : Writes g b) : Writes (fun w => f w >>= g) (a ++ b) := by
  intro w h hs
  simp only [List.length_append] at h ⊢
  rw [hf w (by omega) hs]
  by_cases h1 : w.written.length + a.length ≤ w.size
  · simp only [h1, if_true, Out.bind_ok]
    rw [hg _ (by simp; omega) (by simp; omega)]
    simp [Nat.add_assoc]
  · have : ¬ (w.written.length + (a.length + b.length) ≤ w.size) := by omega
    simp [h1, this]

theorem Writes.nil : Writes (fun w => .ok w) [] := by
  intro w _ hs; simp [hs]

theorem Writes.str (s : String) : Writes (writeString s) (encStr s) :=
  Writes.seq (Writes.raw _) (Writes.raw _)

mutual
theorem writesJ : ∀ j : JsJson, Writes j.writeTo (encJ j)
  | .tru => Writes.raw _
  | .fls => Writes.raw _
  | .null => Writes.raw _
  | .str s => Writes.seq (Writes.raw _) (Writes.str s)
  | .num b => Writes.seq (Writes.raw _) (Writes.raw _)
  | .list l => Writes.seq (Writes.raw _) (Writes.seq (Writes.raw _) (writesJL l))
  | .obj l => Writes.seq (Writes.raw _) (Writes.seq (Writes.raw _) (writesJO l))
theorem writesJL : ∀ l : List JsJson, Writes (JsJson.writeList l) (encJL l)
  | [] => Writes.nil
  | x :: xs => Writes.seq (writesJ x) (writesJL xs)
theorem writesJO : ∀ l : List (String × JsJson), Writes (JsJson.writeObj l) (encJO l)
  | [] => Writes.nil
  | (k, v) :: xs => Writes.seq (Writes.str k) (Writes.seq (writesJ v) (writesJO xs))
end

mutual
theorem writesV : ∀ j : JsValue, Writes j.writeTo (encV j)
  | .tru => Writes.raw _
  | .fls => Writes.raw _
  | .null => Writes.raw _
  | .undefined => Writes.raw _
  | .u32 _ => Writes.seq (Writes.raw _) (Writes.raw _)
  | .i32 _ => Writes.seq (Writes.raw _) (Writes.raw _)
  | .u64 _ => Writes.seq (Writes.raw _) (Writes.raw _)
  | .i64 _ => Writes.seq (Writes.raw _) (Writes.raw _)
  | .f64 _ => Writes.seq (Writes.raw _) (Writes.raw _)
  | .str s => Writes.seq (Writes.raw _) (Writes.str s)
  | .vec b => Writes.seq (Writes.raw _) (Writes.seq (Writes.raw _) (Writes.raw _))
  | .list l => Writes.seq (Writes.raw _) (Writes.seq (Writes.raw _) (writesVL l))
  | .obj l => Writes.seq (Writes.raw _) (Writes.seq (Writes.raw _) (writesVO l))
  | .json j => Writes.seq (Writes.raw _) (writesJ j)
theorem writesVL : ∀ l : List JsValue, Writes (JsValue.writeList l) (encVL l)
  | [] => Writes.nil
  | x :: xs => Writes.seq (writesV x) (writesVL xs)
theorem writesVO : ∀ l : List (String × JsValue), Writes (JsValue.writeObj l) (encVO l)
  | [] => Writes.nil
  | (k, v) :: xs => Writes.seq (Writes.str k) (Writes.seq (writesV v) (writesVO xs))
end

/-! ### Reading -/

/-- At an offset where the block contains `e`, the reader `f` returns `a` and
stands behind `e`. -/
def Reads {α} (f : MemRead → Out (α × MemRead)) (e : List UInt8) (a : α) : Prop :=
  ∀ (block : List UInt8) (off : Nat) (post : List UInt8), block.length < 2 ^ 32 →
    block.drop off = e ++ post → off ≤ block.length →
    f ⟨block, off⟩ = .ok (a, ⟨block, off + e.length⟩)

theorem drop_step {α} {block e post : List α} {off : Nat} (h : block.drop off = e ++ post)
    (hle : off ≤ block.length) :
    block.drop (off + e.length) = post ∧ off + e.length ≤ block.length := by
  have h1 : (block.drop off).length = e.length + post.length := by rw [h]; simp
  rw [List.length_drop] at h1
  refine ⟨?_, by omega⟩
  rw [← List.drop_drop, h]
  simp

theorem Reads.bind {α β} {f : MemRead → Out (α × MemRead)} {g : α × MemRead → Out (β × MemRead)}
    {e1 e2 : List UInt8} {a : α} {b : β} (hf : Reads f e1 a)
    (hg : Reads (fun r => g (a, r)) e2 b) : Reads (fun r => f r >>= g) (e1 ++ e2) b := by
  intro block off post hb hd hle
  have hd' : block.drop off = e1 ++ (e2 ++ post) := by rw [hd, List.append_assoc]
  have hs := drop_step hd' hle
  simp only
  rw [hf block off (e2 ++ post) hb hd' hle]
  simp only [Out.bind_ok]
  have h2 := hg block _ post hb hs.1 hs.2
  simp only at h2
  rw [h2]
  simp [Nat.add_assoc]

theorem Reads.ret {α} (a : α) : Reads (fun r => .ok (a, r)) [] a := by
  intro block off post _ _ _; simp

theorem Reads.map {α β} {f : MemRead → Out (α × MemRead)} {g : α → β}
    {e : List UInt8} {a : α} (hf : Reads f e a) :
    Reads (fun r => f r >>= fun p => .ok (g p.1, p.2)) e (g a) := by
  intro block off post hb hd hle
  simp only
  rw [hf block off post hb hd hle]
  simp

theorem Reads.congr {α} {f f' : MemRead → Out (α × MemRead)} {e : List UInt8} {a : α}
    (h : ∀ r, f r = f' r) (hf : Reads f e a) : Reads f' e a := by
  intro block off post hb hd hle
  rw [← h]; exact hf block off post hb hd hle

theorem at_eq {block : List UInt8} {off : Nat} {e : List UInt8} (h : block.drop off = e) (i : Nat) :
    (⟨block, off⟩ : MemRead).at (off + i) = match e[i]? with
      | some b => .ok b | none => .panic := by
  have : block[off + i]? = e[i]? := by rw [← h, List.getElem?_drop]
  simp only [MemRead.at, this]
  cases e[i]? <;> rfl

theorem at_eq0 {block : List UInt8} {off : Nat} {e : List UInt8} (h : block.drop off = e) :
    (⟨block, off⟩ : MemRead).at off = match e[0]? with
      | some b => .ok b | none => .panic := at_eq h 0

theorem advance_eq {block : List UInt8} {off n : Nat} (h : off + n < 2 ^ 32) :
    (⟨block, off⟩ : MemRead).advance n = ⟨block, off + n⟩ := by
  simp [MemRead.advance, Nat.mod_eq_of_lt h]

theorem reads_byte (b : UInt8) : Reads getByte [b] b := by
  intro block off post hb hd hle
  have hs := drop_step hd hle
  simp at hs
  simp only [getByte]
  rw [at_eq0 hd, advance_eq (by omega)]
  simp

theorem reads_u16 (v : UInt16) : Reads getU16 (be16 v) v := by
  intro block off post hb hd hle
  have hs := drop_step hd hle
  simp at hs
  simp only [getU16]
  rw [at_eq0 hd, at_eq hd 1, advance_eq (by omega)]
  simp [be16]
  exact ofBe16_be16 v

theorem reads_u32 (v : UInt32) : Reads getU32 (be32 v) v := by
  intro block off post hb hd hle
  have hs := drop_step hd hle
  simp at hs
  simp only [getU32]
  rw [at_eq0 hd, at_eq hd 1, at_eq hd 2, at_eq hd 3, advance_eq (by omega)]
  simp only [be32, List.cons_append, List.getElem?_cons_zero, List.getElem?_cons_succ, Out.bind_ok,
    Out.pure_eq, ofBe32_be32]
  rfl

theorem reads_i32 (v : Int32) : Reads getI32 (be32 v.toUInt32) v := by
  intro block off post hb hd hle
  have hs := drop_step hd hle
  simp at hs
  simp only [getI32]
  rw [at_eq0 hd, at_eq hd 1, at_eq hd 2, at_eq hd 3, advance_eq (by omega)]
  simp only [be32, List.cons_append, List.getElem?_cons_zero, List.getElem?_cons_succ, Out.bind_ok,
    Out.pure_eq, ofBe32_be32]
  rfl

theorem reads_u64 (v : UInt64) : Reads getU64 (be64 v) v := by
  intro block off post hb hd hle
  have hs := drop_step hd hle
  simp at hs
  simp only [getU64]
  rw [at_eq0 hd, at_eq hd 1, at_eq hd 2, at_eq hd 3, at_eq hd 4, at_eq hd 5, at_eq hd 6, at_eq hd 7,
    advance_eq (by omega)]
  simp only [be64, List.cons_append, List.getElem?_cons_zero, List.getElem?_cons_succ, Out.bind_ok,
    Out.pure_eq, ofBe64_be64]
  rfl

theorem reads_i64 (v : Int64) : Reads getI64 (be64 v.toUInt64) v :=
  Reads.map (g := UInt64.toInt64) (reads_u64 v.toUInt64)

theorem reads_vec (b : List UInt8) (hb : b.length < 2 ^ 32) :
    Reads (fun r => getVec r (UInt32.ofNat b.length)) b b := by
  intro block off post hl hd hle
  have hs := drop_step hd hle
  have h1 : (UInt32.ofNat b.length).toNat = b.length := by
    simp; omega
  have h2 : (off + b.length) % 2 ^ 32 = off + b.length := Nat.mod_eq_of_lt (by omega)
  simp only [getVec, h1, h2]
  rw [if_pos (by omega), advance_eq (by omega), hd]
  simp

theorem reads_lenString (s : String) (hs : s.utf8ByteSize < 2 ^ 32) :
    Reads getLenString (encStr s) s := by
  refine Reads.bind (reads_u32 _) ?_
  have h := reads_vec (strBytes s) (by rw [strBytes_length]; exact hs)
  intro block off post hl hd hle
  have h2 := h block off post hl hd hle
  simp only at h2
  simp only [getString]
  rw [h2]
  simp [fromUtf8_strBytes]

theorem mapInsert_new {β} (l : List (String × β)) (k : String) (v : β)
    (h : k ∉ l.map (·.1)) : mapInsert l k v = l ++ [(k, v)] := by
  induction l with
  | nil => rfl
  | cons p l ih =>
    obtain ⟨k', v'⟩ := p
    simp at h
    have hne : k' ≠ k := fun e => h.1 e.symm
    simp [mapInsert, hne]
    exact ih (by simpa using h.2)

/-! ### Depth: enough recursion budget -/

mutual
def depthJ : JsJson → Nat
  | .list l => 1 + depthJL l
  | .obj l => 1 + depthJO l
  | _ => 1
def depthJL : List JsJson → Nat
  | [] => 0
  | x :: xs => max (depthJ x) (depthJL xs)
def depthJO : List (String × JsJson) → Nat
  | [] => 0
  | (_, v) :: xs => max (depthJ v) (depthJO xs)
end

mutual
theorem depthJ_le : ∀ j, depthJ j ≤ j.wireLen
  | .tru | .fls | .null | .str _ | .num _ => by simp [depthJ, JsJson.wireLen] <;> omega
  | .list l => by have := depthJL_le l; simp [depthJ, JsJson.wireLen]; omega
  | .obj l => by have := depthJO_le l; simp [depthJ, JsJson.wireLen]; omega
theorem depthJL_le : ∀ l, depthJL l ≤ JsJson.wireLenL l
  | [] => by simp [depthJL]
  | x :: xs => by
      have := depthJ_le x; have := depthJL_le xs; simp [depthJL, JsJson.wireLenL]; omega
theorem depthJO_le : ∀ l, depthJO l ≤ JsJson.wireLenO l
  | [] => by simp [depthJO]
  | (k, v) :: xs => by
      have := depthJ_le v; have := depthJO_le xs; simp [depthJO, JsJson.wireLenO]; omega
end

theorem wireLenL_ge : ∀ l, l.length ≤ JsJson.wireLenL l
  | [] => by simp
  | x :: xs => by
      have := depthJ_le x
      have := wireLenL_ge xs
      have : 1 ≤ depthJ x := by cases x <;> simp [depthJ]
      simp [JsJson.wireLenL]; omega

mutual
theorem reads_json : ∀ (j : JsJson) (fuel : Nat), depthJ j ≤ fuel → j.WF → j.wireLen < 2 ^ 32 →
    Reads (decodeJson fuel) (encJ j) j
  | .tru, 0, h, _, _ => by simp [depthJ] at h
  | .tru, f+1, _, _, _ => Reads.bind (e2 := []) (reads_byte _) (Reads.ret _)
  | .fls, 0, h, _, _ => by simp [depthJ] at h
  | .fls, f+1, _, _, _ => Reads.bind (e2 := []) (reads_byte _) (Reads.ret _)
  | .null, 0, h, _, _ => by simp [depthJ] at h
  | .null, f+1, _, _, _ => Reads.bind (e2 := []) (reads_byte _) (Reads.ret _)
  | .str _, 0, h, _, _ => by simp [depthJ] at h
  | .str s, f+1, _, _, hl =>
      Reads.bind (reads_byte _) (Reads.map (g := JsJson.str)
        (reads_lenString s (by simp [JsJson.wireLen] at hl; omega)))
  | .num _, 0, h, _, _ => by simp [depthJ] at h
  | .num b, f+1, _, _, _ =>
      Reads.bind (reads_byte _) (Reads.map (g := JsJson.num) (reads_u64 b))
  | .list _, 0, h, _, _ => by simp [depthJ] at h
  | .list l, f+1, h, hw, hl => by
      have hlen := wireLenL_ge l
      simp [JsJson.wireLen] at hl
      have hn : (UInt32.ofNat l.length).toNat = l.length := by simp; omega
      refine Reads.bind (reads_byte _) (Reads.bind (reads_u32 _) (Reads.map (g := JsJson.list) ?_))
      simp only [hn]
      exact reads_jsonL l f [] (by simp [depthJ] at h; omega) (by simpa [JsJson.WF] using hw)
        (by omega)
  | .obj _, 0, h, _, _ => by simp [depthJ] at h
  | .obj l, f+1, h, hw, hl => by
      simp [JsJson.wireLen] at hl
      simp only [JsJson.WF] at hw
      have hn : (UInt16.ofNat l.length).toNat = l.length := by simp; omega
      refine Reads.bind (reads_byte _) (Reads.bind (reads_u16 _) (Reads.map (g := JsJson.obj) ?_))
      simp only [hn]
      exact reads_jsonO l f [] (by simp [depthJ] at h; omega) hw.2.2
        (by omega) (by simpa using hw.1)
theorem reads_jsonL : ∀ (l : List JsJson) (fuel : Nat) (acc : List JsJson), depthJL l ≤ fuel →
    JsJson.WFL l → JsJson.wireLenL l < 2 ^ 32 →
    Reads (readList (decodeJson fuel) l.length acc) (encJL l) (acc ++ l)
  | [], fuel, acc, _, _, _ => by simpa [readList, encJL] using Reads.ret acc
  | x :: xs, fuel, acc, h, hw, hl => by
      simp only [depthJL, JsJson.WFL, JsJson.wireLenL] at h hw hl
      have h2 := reads_jsonL xs fuel (acc ++ [x]) (by omega) hw.2 (by omega)
      simp only [List.append_assoc, List.singleton_append] at h2
      exact Reads.bind (reads_json x fuel (by omega) hw.1 (by omega)) h2
theorem reads_jsonO : ∀ (l : List (String × JsJson)) (fuel : Nat) (acc : List (String × JsJson)),
    depthJO l ≤ fuel → JsJson.WFO l → JsJson.wireLenO l < 2 ^ 32 →
    ((acc ++ l).map (·.1)).Nodup →
    Reads (readObj getLenString (decodeJson fuel) l.length acc) (encJO l) (acc ++ l)
  | [], fuel, acc, _, _, _, _ => by simpa [readObj, encJO] using Reads.ret acc
  | (k, v) :: xs, fuel, acc, h, hw, hl, hnd => by
      simp only [depthJO, JsJson.WFO, JsJson.wireLenO] at h hw hl
      have hk : k ∉ acc.map (·.1) := by
        intro hmem
        rw [List.map_append, List.nodup_append] at hnd
        exact hnd.2.2 k hmem k (by simp) rfl
      have h2 := reads_jsonO xs fuel (acc ++ [(k, v)]) (by omega) hw.2 (by omega)
        (by simpa using hnd)
      simp only [List.append_assoc, List.singleton_append] at h2
      refine Reads.bind (reads_lenString k (by omega))
        (Reads.bind (reads_json v fuel (by omega) hw.1 (by omega)) ?_)
      simp only
      rw [mapInsert_new acc k v hk]
      exact h2
end

mutual
def depthV : JsValue → Nat
  | .list l => 1 + depthVL l
  | .obj _ => 1
  | .json j => 1 + depthJ j
  | _ => 1
def depthVL : List JsValue → Nat
  | [] => 0
  | x :: xs => max (depthV x) (depthVL xs)
end

mutual
theorem depthV_le : ∀ j, depthV j ≤ j.wireLen
  | .tru | .fls | .null | .undefined | .str _ | .u32 _ | .i32 _ | .u64 _ | .i64 _ | .f64 _
  | .vec _ => by simp [depthV, JsValue.wireLen] <;> omega
  | .list l => by have := depthVL_le l; simp [depthV, JsValue.wireLen]; omega
  | .obj l => by simp [depthV, JsValue.wireLen]; omega
  | .json j => by have := depthJ_le j; simp [depthV, JsValue.wireLen]; omega
theorem depthVL_le : ∀ l, depthVL l ≤ JsValue.wireLenL l
  | [] => by simp [depthVL]
  | x :: xs => by
      have := depthV_le x; have := depthVL_le xs; simp [depthVL, JsValue.wireLenL]; omega
end

theorem wireLenVL_ge : ∀ l, l.length ≤ JsValue.wireLenL l
  | [] => by simp
  | x :: xs => by
      have := depthV_le x
      have := wireLenVL_ge xs
      have : 1 ≤ depthV x := by cases x <;> simp [depthV]
      simp [JsValue.wireLenL]; omega

mutual
theorem reads_value : ∀ (j : JsValue) (fuel : Nat), depthV j ≤ fuel → j.WF → j.NoObject →
    j.wireLen < 2 ^ 32 → Reads (decodeValue fuel) (encV j) j
  | j, 0, h, _, _, _ => by
      have : 1 ≤ depthV j := by cases j <;> simp [depthV]
      omega
  | .tru, f+1, _, _, _, _ => Reads.bind (e2 := []) (reads_byte _) (Reads.ret _)
  | .fls, f+1, _, _, _, _ => Reads.bind (e2 := []) (reads_byte _) (Reads.ret _)
  | .null, f+1, _, _, _, _ => Reads.bind (e2 := []) (reads_byte _) (Reads.ret _)
  | .undefined, f+1, _, _, _, _ => Reads.bind (e2 := []) (reads_byte _) (Reads.ret _)
  | .u32 v, f+1, _, _, _, _ => Reads.bind (reads_byte _) (Reads.map (g := JsValue.u32) (reads_u32 v))
  | .i32 v, f+1, _, _, _, _ => Reads.bind (reads_byte _) (Reads.map (g := JsValue.i32) (reads_i32 v))
  | .u64 v, f+1, _, _, _, _ => Reads.bind (reads_byte _) (Reads.map (g := JsValue.u64) (reads_u64 v))
  | .i64 v, f+1, _, _, _, _ => Reads.bind (reads_byte _) (Reads.map (g := JsValue.i64) (reads_i64 v))
  | .f64 v, f+1, _, _, _, _ => Reads.bind (reads_byte _) (Reads.map (g := JsValue.f64) (reads_u64 v))
  | .vec b, f+1, _, _, _, hl =>
      Reads.bind (reads_byte _) (Reads.bind (reads_u32 _) (Reads.map (g := JsValue.vec)
        (reads_vec b (by simp [JsValue.wireLen] at hl; omega))))
  | .str s, f+1, _, _, _, hl =>
      Reads.bind (reads_byte _) (Reads.map (g := JsValue.str)
        (reads_lenString s (by simp [JsValue.wireLen] at hl; omega)))
  | .list l, f+1, h, hw, hno, hl => by
      have hlen := wireLenVL_ge l
      simp [JsValue.wireLen] at hl
      have hn : (UInt32.ofNat l.length).toNat = l.length := by simp; omega
      refine Reads.bind (reads_byte _) (Reads.bind (reads_u32 _) (Reads.map (g := JsValue.list) ?_))
      simp only [hn]
      exact reads_valueL l f [] (by simp [depthV] at h; omega) (by simpa [JsValue.WF] using hw)
        (by simpa [JsValue.NoObject] using hno) (by omega)
  | .obj l, f+1, _, _, hno, _ => by
      simp only [JsValue.NoObject] at hno
      subst hno
      exact Reads.bind (reads_byte _) (Reads.bind (e2 := []) (reads_u16 _) (Reads.ret _))
  | .json j, f+1, h, hw, _, hl =>
      Reads.bind (reads_byte _) (Reads.map (g := JsValue.json)
        (reads_json j f (by simp [depthV] at h; omega) (by simpa [JsValue.WF] using hw)
          (by simp [JsValue.wireLen] at hl; omega)))
theorem reads_valueL : ∀ (l : List JsValue) (fuel : Nat) (acc : List JsValue), depthVL l ≤ fuel →
    JsValue.WFL l → JsValue.NoObjectL l → JsValue.wireLenL l < 2 ^ 32 →
    Reads (readList (decodeValue fuel) l.length acc) (encVL l) (acc ++ l)
  | [], fuel, acc, _, _, _, _ => by simpa [readList, encVL] using Reads.ret acc
  | x :: xs, fuel, acc, h, hw, hno, hl => by
      simp only [depthVL, JsValue.WFL, JsValue.wireLenL, JsValue.NoObjectL] at h hw hl hno
      have h2 := reads_valueL xs fuel (acc ++ [x]) (by omega) hw.2 hno.2 (by omega)
      simp only [List.append_assoc, List.singleton_append] at h2
      exact Reads.bind (reads_value x fuel (by omega) hw.1 hno.1 (by omega)) h2
end

end Verif.Codec
