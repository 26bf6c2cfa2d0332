import Verif.Codec.Lemmas
/-! Totality of the Rust decoder and the fate of `JsValue::Object`. -/
namespace Verif.Codec

/-- On every state with less than `n` bytes left, `f` does not exhaust the budget
and, if it succeeds, consumed at least `k` bytes of the block. -/
def Tot {α} (k n : Nat) (f : MemRead → Out (α × MemRead)) : Prop :=
  ∀ r : MemRead, r.block.length < 2 ^ 32 → r.offset ≤ r.block.length →
    r.block.length - r.offset < n →
    f r ≠ .fuel ∧ ∀ a r', f r = .ok (a, r') →
      r'.block = r.block ∧ r.offset + k ≤ r'.offset ∧ r'.offset ≤ r.block.length

theorem Tot.bind {α β} {k1 k2 n} {f : MemRead → Out (α × MemRead)}
    {g : α × MemRead → Out (β × MemRead)} (hf : Tot k1 n f)
    (hg : ∀ a, Tot k2 (n - k1) (fun r => g (a, r))) :
    Tot (k1 + k2) n (fun r => f r >>= g) := by
  intro r hb ho hn
  obtain ⟨h1, h2⟩ := hf r hb ho hn
  refine ⟨?_, ?_⟩
  · apply Out.bind_ne_fuel h1
    rintro ⟨a, r'⟩ hok
    obtain ⟨e1, e2, e3⟩ := h2 a r' hok
    exact ((hg a) r' (by rw [e1]; exact hb) (by rw [e1]; omega) (by rw [e1]; omega)).1
  · intro b r'' hok
    rw [Out.bind_eq_ok] at hok
    obtain ⟨⟨a, r'⟩, hfa, hga⟩ := hok
    obtain ⟨e1, e2, e3⟩ := h2 a r' hfa
    have := ((hg a) r' (by rw [e1]; exact hb) (by rw [e1]; omega) (by rw [e1]; omega)).2 b r'' hga
    rw [e1] at this
    exact ⟨this.1, by omega, this.2.2⟩

theorem Tot.mono {α} {k k' n n'} {f : MemRead → Out (α × MemRead)} (h : Tot k n f)
    (hk : k' ≤ k) (hn : n' ≤ n) : Tot k' n' f := by
  intro r hb ho hr
  obtain ⟨h1, h2⟩ := h r hb ho (by omega)
  refine ⟨h1, fun a r' he => ?_⟩
  have := h2 a r' he
  exact ⟨this.1, by omega, this.2.2⟩

theorem Tot.ret {α} (n) (a : α) : Tot 0 n (fun r => .ok (a, r)) := by
  intro r _ ho _
  refine ⟨by simp, ?_⟩
  intro a' r' h
  simp at h
  obtain ⟨-, rfl⟩ := h
  exact ⟨rfl, by omega, ho⟩

theorem Tot.err {α} (k n) (m) : Tot k n (fun _ => (.err m : Out (α × MemRead))) := by
  intro r _ ho _; simp

theorem Tot.map {α β} {k n} {f : MemRead → Out (α × MemRead)} {g : α → β} (h : Tot k n f) :
    Tot k n (fun r => f r >>= fun p => .ok (g p.1, p.2)) :=
  Tot.bind (k2 := 0) h (fun a => Tot.ret _ (g a))

theorem at_ne_fuel (r : MemRead) (i) : r.at i ≠ .fuel := by
  unfold MemRead.at; split <;> simp

theorem at_ok {r : MemRead} {i b} (h : r.at i = .ok b) : i < r.block.length := by
  unfold MemRead.at at h
  split at h
  · rename_i hb; exact (List.getElem?_eq_some_iff.mp hb).1
  · simp at h

theorem advance_ok {r : MemRead} {k : Nat} (hb : r.block.length < 2 ^ 32)
    (h : r.offset + k ≤ r.block.length) :
    (r.advance k).block = r.block ∧ r.offset + k ≤ (r.advance k).offset ∧
      (r.advance k).offset ≤ r.block.length := by
  have : (r.offset + k) % 2 ^ 32 = r.offset + k := Nat.mod_eq_of_lt (by omega)
  simp only [MemRead.advance, this]
  exact ⟨trivial, by omega, h⟩

theorem tot_byte (n) : Tot 1 n getByte := by
  intro r hb ho _
  refine ⟨?_, ?_⟩
  · unfold getByte; exact Out.bind_ne_fuel (at_ne_fuel _ _) (by simp)
  · intro a r' h
    simp only [getByte, Out.bind_eq_ok, Out.pure_eq, Out.ok.injEq, Prod.mk.injEq] at h
    obtain ⟨b, hb1, -, rfl⟩ := h
    have := at_ok hb1
    exact advance_ok hb (by omega)

theorem tot_u16 (n) : Tot 2 n getU16 := by
  intro r hb ho _
  refine ⟨?_, ?_⟩
  · unfold getU16
    repeat (refine Out.bind_ne_fuel (at_ne_fuel _ _) (fun _ _ => ?_))
    simp
  · intro a r' h
    simp only [getU16, Out.bind_eq_ok, Out.pure_eq, Out.ok.injEq, Prod.mk.injEq] at h
    obtain ⟨_, _, b, hb1, -, rfl⟩ := h
    have := at_ok hb1
    exact advance_ok hb (by omega)

theorem tot_u32 (n) : Tot 4 n getU32 := by
  intro r hb ho _
  refine ⟨?_, ?_⟩
  · unfold getU32
    repeat (refine Out.bind_ne_fuel (at_ne_fuel _ _) (fun _ _ => ?_))
    simp
  · intro a r' h
    simp only [getU32, Out.bind_eq_ok, Out.pure_eq, Out.ok.injEq, Prod.mk.injEq] at h
    obtain ⟨_, _, _, _, _, _, b, hb1, -, rfl⟩ := h
    have := at_ok hb1
    exact advance_ok hb (by omega)

theorem tot_i32 (n) : Tot 4 n getI32 := by
  intro r hb ho _
  refine ⟨?_, ?_⟩
  · unfold getI32
    repeat (refine Out.bind_ne_fuel (at_ne_fuel _ _) (fun _ _ => ?_))
    simp
  · intro a r' h
    simp only [getI32, Out.bind_eq_ok, Out.pure_eq, Out.ok.injEq, Prod.mk.injEq] at h
    obtain ⟨_, _, _, _, _, _, b, hb1, -, rfl⟩ := h
    have := at_ok hb1
    exact advance_ok hb (by omega)

theorem tot_u64 (n) : Tot 8 n getU64 := by
  intro r hb ho _
  refine ⟨?_, ?_⟩
  · unfold getU64
    repeat (refine Out.bind_ne_fuel (at_ne_fuel _ _) (fun _ _ => ?_))
    simp
  · intro a r' h
    simp only [getU64, Out.bind_eq_ok, Out.pure_eq, Out.ok.injEq, Prod.mk.injEq] at h
    obtain ⟨_, _, _, _, _, _, _, _, _, _, _, _, _, _, b, hb1, -, rfl⟩ := h
    have := at_ok hb1
    exact advance_ok hb (by omega)

theorem tot_i64 (n) : Tot 8 n getI64 := Tot.map (g := UInt64.toInt64) (tot_u64 n)

theorem tot_vec (n len) : Tot 0 n (fun r => getVec r len) := by
  intro r hb ho _
  refine ⟨?_, ?_⟩
  · simp only [getVec]; split <;> simp
  · intro a r' h
    simp only [getVec] at h
    split at h
    · rename_i hc
      simp at h
      obtain ⟨-, rfl⟩ := h
      have hlen := len.toNat_lt
      have : r.offset + len.toNat < 2 ^ 32 := by
        rcases Nat.lt_or_ge (r.offset + len.toNat) (2 ^ 32) with h | h
        · exact h
        · have : (r.offset + len.toNat) % 2 ^ 32 = r.offset + len.toNat - 2 ^ 32 := by omega
          omega
      rw [Nat.mod_eq_of_lt this] at hc
      have := advance_ok (k := len.toNat) hb hc.2
      exact ⟨this.1, by omega, this.2.2⟩
    · simp at h

theorem tot_lenString (n) : Tot 4 n getLenString := by
  refine Tot.bind (k2 := 0) (tot_u32 n) (fun len => ?_)
  refine Tot.bind (k1 := 0) (k2 := 0) (tot_vec _ len) (fun b => ?_)
  intro r hb ho hn
  simp only
  split
  · exact Tot.ret _ _ r hb ho hn
  · exact Tot.err _ _ _ r hb ho hn

theorem tot_readList {α} {n} {item : MemRead → Out (α × MemRead)} (h : Tot 0 n item) :
    ∀ c acc, Tot 0 n (readList item c acc)
  | 0, acc => Tot.ret _ _
  | c + 1, acc => Tot.bind (k1 := 0) (k2 := 0) h (fun _ => tot_readList h c _)

theorem tot_readObj {α} {n} {key} {item : MemRead → Out (α × MemRead)} (hk : Tot 0 n key)
    (h : Tot 0 n item) : ∀ c acc, Tot 0 n (readObj key item c acc)
  | 0, acc => Tot.ret _ _
  | c + 1, acc => Tot.bind (k1 := 0) (k2 := 0) hk
      (fun _ => Tot.bind (k1 := 0) (k2 := 0) h (fun _ => tot_readObj hk h c _))

theorem Tot.ite {α} {k n} {c : Prop} [Decidable c] {f g : MemRead → Out (α × MemRead)}
    (hf : Tot k n f) (hg : Tot k n g) : Tot k n (fun r => if c then f r else g r) := by
  split <;> assumption

theorem tot_taggedKey {n} {item} (h : Tot 0 n item) : Tot 0 n (taggedKey item) := by
  refine Tot.bind (k1 := 0) (k2 := 0) h (fun v => ?_)
  intro r hb ho hn
  cases v with
  | str s => exact Tot.ret _ s r hb ho hn
  | _ => exact Tot.err _ _ _ r hb ho hn

theorem tot_json : ∀ fuel, Tot 1 fuel (decodeJson fuel)
  | 0 => by intro r _ _ h; omega
  | f + 1 => by
      have ih : Tot 0 f (decodeJson f) := (tot_json f).mono (Nat.zero_le 1) (Nat.le_refl _)
      refine Tot.bind (k2 := 0) (tot_byte _) (fun tag => ?_)
      refine Tot.ite (Tot.ret _ _) (Tot.ite (Tot.ret _ _) (Tot.ite (Tot.ret _ _) (Tot.ite ?_
        (Tot.ite ?_ (Tot.ite ?_ (Tot.ite ?_ (Tot.err _ _ _)))))))
      · exact (Tot.map (g := JsJson.str) (tot_lenString _)).mono (by omega) (Nat.le_refl _)
      · exact (Tot.map (g := JsJson.num) (tot_u64 _)).mono (by omega) (Nat.le_refl _)
      · refine Tot.mono (k := 4 + 0) (Tot.bind (tot_u32 _) (fun n => ?_)) (by omega) (Nat.le_refl _)
        exact Tot.map (g := JsJson.list) ((tot_readList ih _ _).mono (by omega) (by omega))
      · refine Tot.mono (k := 2 + 0) (Tot.bind (tot_u16 _) (fun n => ?_)) (by omega) (Nat.le_refl _)
        exact Tot.map (g := JsJson.obj)
          ((tot_readObj ((tot_lenString _).mono (by omega) (Nat.le_refl _)) ih _ _).mono
            (by omega) (by omega))

theorem tot_value : ∀ fuel, Tot 1 fuel (decodeValue fuel)
  | 0 => by intro r _ _ h; omega
  | f + 1 => by
      have ih : Tot 0 f (decodeValue f) := (tot_value f).mono (Nat.zero_le 1) (Nat.le_refl _)
      refine Tot.bind (k2 := 0) (tot_byte _) (fun tag => ?_)
      refine Tot.ite ?_ (Tot.ite ?_ (Tot.ite ?_ (Tot.ite ?_ (Tot.ite ?_ (Tot.ite (Tot.ret _ _)
        (Tot.ite (Tot.ret _ _) (Tot.ite (Tot.ret _ _) (Tot.ite (Tot.ret _ _) (Tot.ite ?_ (Tot.ite ?_
        (Tot.ite ?_ (Tot.ite ?_ (Tot.ite ?_ (Tot.err _ _ _))))))))))))))
      · exact (Tot.map (g := JsValue.u32) (tot_u32 _)).mono (by omega) (Nat.le_refl _)
      · exact (Tot.map (g := JsValue.i32) (tot_i32 _)).mono (by omega) (Nat.le_refl _)
      · exact (Tot.map (g := JsValue.u64) (tot_u64 _)).mono (by omega) (Nat.le_refl _)
      · exact (Tot.map (g := JsValue.i64) (tot_i64 _)).mono (by omega) (Nat.le_refl _)
      · exact (Tot.map (g := JsValue.f64) (tot_u64 _)).mono (by omega) (Nat.le_refl _)
      · refine Tot.mono (k := 4 + 0) (Tot.bind (tot_u32 _) (fun n => ?_)) (by omega) (Nat.le_refl _)
        exact Tot.map (g := JsValue.vec) (tot_vec _ n)
      · exact (Tot.map (g := JsValue.str) (tot_lenString _)).mono (by omega) (Nat.le_refl _)
      · refine Tot.mono (k := 4 + 0) (Tot.bind (tot_u32 _) (fun n => ?_)) (by omega) (Nat.le_refl _)
        exact Tot.map (g := JsValue.list) ((tot_readList ih _ _).mono (by omega) (by omega))
      · refine Tot.mono (k := 2 + 0) (Tot.bind (tot_u16 _) (fun n => ?_)) (by omega) (Nat.le_refl _)
        exact Tot.map (g := JsValue.obj)
          ((tot_readObj (tot_taggedKey ih) ih _ _).mono (by omega) (by omega))
      · exact (Tot.map (g := JsValue.json) (tot_json f)).mono (by omega) (Nat.le_refl _)

/-! ### `JsValue::Object` -/

/-- Decoding bytes starting with `e` fails with message `m`. -/
def Fails {α} (f : MemRead → Out (α × MemRead)) (e : List UInt8) (m : String) : Prop :=
  ∀ (block : List UInt8) (off : Nat) (post : List UInt8), block.length < 2 ^ 32 →
    block.drop off = e ++ post → off ≤ block.length → f ⟨block, off⟩ = .err m

theorem Fails.now {α β} {f : MemRead → Out (α × MemRead)} {g : α × MemRead → Out (β × MemRead)}
    {e m} (hf : Fails f e m) : Fails (fun r => f r >>= g) e m := by
  intro block off post hb hd hle
  simp only [hf block off post hb hd hle, Out.bind_err]

theorem Fails.app {α} {f : MemRead → Out (α × MemRead)} {e e' m} (hf : Fails f e m) :
    Fails f (e ++ e') m := by
  intro block off post hb hd hle
  exact hf block off (e' ++ post) hb (by rw [hd, List.append_assoc]) hle

theorem Fails.later {α β} {f : MemRead → Out (α × MemRead)} {g : α × MemRead → Out (β × MemRead)}
    {e1 e2 : List UInt8} {a : α} {m} (hf : Reads f e1 a)
    (hg : Fails (fun r => g (a, r)) e2 m) : Fails (fun r => f r >>= g) (e1 ++ e2) m := by
  intro block off post hb hd hle
  have hd' : block.drop off = e1 ++ (e2 ++ post) := by rw [hd, List.append_assoc]
  have hs := drop_step hd' hle
  simp only
  rw [hf block off (e2 ++ post) hb hd' hle]
  simp only [Out.bind_ok]
  exact hg block _ post hb hs.1 hs.2

theorem fails_zero (f : Nat) (e : List UInt8) :
    Fails (decodeValue (f + 1)) (0 :: e) "JsValue: Unknown data type prefix 0" := by
  refine Fails.later (e1 := [0]) (reads_byte 0) ?_
  intro block off post _ _ _
  rfl

theorem encStr_head (k : String) (h : k.utf8ByteSize < 2 ^ 24) : ∃ t, encStr k = 0 :: t := by
  refine ⟨(encStr k).tail, ?_⟩
  have : UInt8.ofNat ((UInt32.ofNat (strBytes k).length).toNat / 2 ^ 24) = 0 := by
    rw [strBytes_length]
    apply UInt8.toNat_inj.mp
    simp
    omega
  simp only [encStr, be32, this, List.cons_append, List.tail_cons]

theorem noObjectL_not : ∀ l, ¬ JsValue.NoObjectL l → l ≠ []
  | [], h => by simp [JsValue.NoObjectL] at h
  | _ :: _, _ => by simp

mutual
theorem fails_value : ∀ (v : JsValue) (fuel : Nat), depthV v < fuel → v.WF → ¬ v.NoObject →
    v.wireLen < 2 ^ 24 → Fails (decodeValue fuel) (encV v) "JsValue: Unknown data type prefix 0"
  | _, 0, h, _, _, _ => by omega
  | .tru, f+1, _, _, hn, _ | .fls, f+1, _, _, hn, _ | .null, f+1, _, _, hn, _
  | .undefined, f+1, _, _, hn, _ | .u32 _, f+1, _, _, hn, _ | .i32 _, f+1, _, _, hn, _
  | .u64 _, f+1, _, _, hn, _ | .i64 _, f+1, _, _, hn, _ | .f64 _, f+1, _, _, hn, _
  | .vec _, f+1, _, _, hn, _ | .str _, f+1, _, _, hn, _ | .json _, f+1, _, _, hn, _ => by
      simp [JsValue.NoObject] at hn
  | .list l, f+1, h, hw, hno, hl => by
      have hlen := wireLenVL_ge l
      simp [JsValue.wireLen] at hl
      have hn : (UInt32.ofNat l.length).toNat = l.length := by simp; omega
      refine Fails.later (reads_byte _) (Fails.later (reads_u32 _) (Fails.now ?_))
      simp only [hn]
      exact fails_valueL l f [] (by simp [depthV] at h; omega) (by simpa [JsValue.WF] using hw)
        (by simpa [JsValue.NoObject] using hno) (by omega)
  | .obj [], f+1, _, _, hno, _ => by simp [JsValue.NoObject] at hno
  | .obj ((k, v) :: xs), f+1, h, hw, _, hl => by
      simp only [JsValue.WF] at hw
      have hn : (UInt16.ofNat ((k, v) :: xs).length).toNat = xs.length + 1 := by
        have := hw.2.1
        simp at this ⊢; omega
      refine Fails.later (reads_byte _) (Fails.later (reads_u16 _) (Fails.now ?_))
      simp only [hn]
      have hk : k.utf8ByteSize < 2 ^ 24 := by
        simp [JsValue.wireLen, JsValue.wireLenO] at hl; omega
      obtain ⟨t, ht⟩ := encStr_head k hk
      simp only [encVO, ht]
      have hf : 1 ≤ f := by simp [depthV] at h; omega
      obtain ⟨f', rfl⟩ : ∃ f', f = f' + 1 := ⟨f - 1, by omega⟩
      refine Fails.now (Fails.now ?_)
      exact fails_zero f' _
theorem fails_valueL : ∀ (l : List JsValue) (fuel : Nat) (acc : List JsValue), depthVL l < fuel →
    JsValue.WFL l → ¬ JsValue.NoObjectL l → JsValue.wireLenL l < 2 ^ 24 →
    Fails (readList (decodeValue fuel) l.length acc) (encVL l)
      "JsValue: Unknown data type prefix 0"
  | [], fuel, acc, _, _, hn, _ => by simp [JsValue.NoObjectL] at hn
  | x :: xs, fuel, acc, h, hw, hno, hl => by
      simp only [depthVL, JsValue.WFL, JsValue.wireLenL, JsValue.NoObjectL] at h hw hl hno
      by_cases hx : x.NoObject
      · have h2 := fails_valueL xs fuel (acc ++ [x]) (by omega) hw.2 (fun hh => hno ⟨hx, hh⟩)
          (by omega)
        exact Fails.later (reads_value x fuel (by omega) hw.1 hx (by omega)) h2
      · exact Fails.app (Fails.now (fails_value x fuel (by omega) hw.1 hx (by omega)))
end

/-! ### Writing into a buffer with room -/

theorem writesJ_ok (j : JsJson) (w : MemWrite) (h : w.written.length + j.wireLen ≤ w.size)
    (h2 : w.written.length + j.wireLen < 2 ^ 32) :
    j.writeTo w = .ok { w with written := w.written ++ encJ j } := by
  have := writesJ j w (by rw [encJ_length]; exact h2) (by omega)
  rw [this, if_pos (by rw [encJ_length]; exact h)]

theorem writesV_ok (v : JsValue) (w : MemWrite) (h : w.written.length + v.wireLen ≤ w.size)
    (h2 : w.written.length + v.wireLen < 2 ^ 32) :
    v.writeTo w = .ok { w with written := w.written ++ encV v } := by
  have := writesV v w (by rw [encV_length]; exact h2) (by omega)
  rw [this, if_pos (by rw [encV_length]; exact h)]

theorem toSnapshot_eq (v : JsValue) (h : v.wireLen < 2 ^ 32) :
    v.toSnapshot = .ok ⟨v.getSize.toNat, encV v⟩ ∧ v.getSize.toNat = v.wireLen := by
  have hs : v.getSize.toNat = v.wireLen := by
    rw [getSizeV_eq]; simp; omega
  have hpos : 0 < v.wireLen := by
    have := depthV_le v
    have : 1 ≤ depthV v := by cases v <;> simp [depthV]
    omega
  have hne : v.getSize ≠ 0 := by
    intro h0; rw [h0] at hs; simp at hs; omega
  refine ⟨?_, hs⟩
  simp only [JsValue.toSnapshot, hne, if_false]
  rw [writesV_ok v _ (by simp [hs]) (by simpa using h)]
  simp

end Verif.Codec
