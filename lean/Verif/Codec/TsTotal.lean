import Verif.Codec.TsLemmas
/-! Totality of the TypeScript decoder (C16). -/
namespace Verif.Codec.Ts
open Verif.Codec

/-- On every cursor with less than `n` bytes left, `f` does not exhaust the budget and, if it succeeds, read at
least `k` bytes of the view. -/
def Tot {α} (k n : Nat) (f : Cursor → Out (α × Cursor)) : Prop :=
  ∀ c : Cursor, c.size - c.pointer < n → f c ≠ .fuel ∧ ∀ a c', f c = .ok (a, c') →
    c'.size = c.size ∧ c.pointer + k ≤ c'.pointer ∧ (0 < k → c.pointer + k ≤ c.size)

theorem Tot.bind {α β} {k1 k2 n} {f : Cursor → Out (α × Cursor)} {g : α × Cursor → Out (β × Cursor)}
    (hf : Tot k1 n f) (hg : ∀ a, Tot k2 (n - k1) (fun c => g (a, c))) : Tot k1 n (fun c => f c >>= g) := by
  intro c hn
  obtain ⟨h1, h2⟩ := hf c hn
  have key : ∀ a c', f c = .ok (a, c') → c'.size - c'.pointer < n - k1 := by
    intro a c' h
    obtain ⟨e1, e2, e3⟩ := h2 a c' h
    rcases Nat.eq_zero_or_pos k1 with h | h
    · omega
    · have := e3 h; omega
  refine ⟨?_, ?_⟩
  · apply Out.bind_ne_fuel h1
    rintro ⟨a, c'⟩ hok
    exact ((hg a) c' (key a c' hok)).1
  · intro b c'' hok
    rw [Out.bind_eq_ok] at hok
    obtain ⟨⟨a, c'⟩, hfa, hga⟩ := hok
    obtain ⟨e1, e2, e3⟩ := h2 a c' hfa
    have := ((hg a) c' (key a c' hfa)).2 b c'' hga
    exact ⟨this.1.trans e1, by omega, e3⟩

theorem Tot.mono {α} {k k' n n'} {f : Cursor → Out (α × Cursor)} (h : Tot k n f) (hk : k' ≤ k) (hn : n' ≤ n) :
    Tot k' n' f := by
  intro c hc
  obtain ⟨h1, h2⟩ := h c (by omega)
  refine ⟨h1, fun a c' he => ?_⟩
  have := h2 a c' he
  exact ⟨this.1, by omega, fun _ => by have := this.2.2 (by omega); omega⟩

theorem Tot.ret {α} (n) (a : α) : Tot 0 n (fun c => .ok (a, c)) := by
  intro c _
  refine ⟨by simp, fun a' c' h => ?_⟩
  simp only [Out.ok.injEq, Prod.mk.injEq] at h
  obtain ⟨-, rfl⟩ := h
  exact ⟨rfl, by omega, by omega⟩

theorem Tot.panic {α} (k n) : Tot k n (fun _ => (.panic : Out (α × Cursor))) := by
  intro c _; simp

theorem Tot.map {α β} {k n} {f : Cursor → Out (α × Cursor)} {g : α → β} (h : Tot k n f) :
    Tot k n (fun c => f c >>= fun p => .ok (g p.1, p.2)) :=
  Tot.bind (k2 := 0) h (fun a => Tot.ret _ (g a))

theorem Tot.ite {α} {k n} {b : Prop} [Decidable b] {f g : Cursor → Out (α × Cursor)}
    (hf : Tot k n f) (hg : Tot k n g) : Tot k n (fun c => if b then f c else g c) := by
  split <;> assumption

theorem at_ne_fuel (c : Cursor) (n i) : c.at n i ≠ .fuel := by
  unfold Cursor.at
  split
  · split <;> simp
  · simp

theorem at_ok {c : Cursor} {n i b} (h : c.at n i = .ok b) : c.pointer + n ≤ c.size := by
  unfold Cursor.at at h
  split at h
  · assumption
  · cases h

theorem tot_byte (n) : Tot 1 n getByte := by
  intro c _
  refine ⟨Out.bind_ne_fuel (at_ne_fuel _ _ _) (by simp), fun a c' h => ?_⟩
  simp only [getByte, Out.bind_eq_ok, Out.pure_eq, Out.ok.injEq, Prod.mk.injEq] at h
  obtain ⟨_, h1, -, rfl⟩ := h
  exact ⟨rfl, Nat.le_refl _, fun _ => at_ok h1⟩

theorem tot_u16 (n) : Tot 2 n getU16 := by
  intro c _
  refine ⟨?_, fun a c' h => ?_⟩
  · unfold getU16
    repeat (refine Out.bind_ne_fuel (at_ne_fuel _ _ _) (fun _ _ => ?_))
    simp
  · simp only [getU16, Out.bind_eq_ok, Out.pure_eq, Out.ok.injEq, Prod.mk.injEq] at h
    obtain ⟨_, h1, _, _, -, rfl⟩ := h
    exact ⟨rfl, Nat.le_refl _, fun _ => at_ok h1⟩

theorem tot_u32 (n) : Tot 4 n getU32 := by
  intro c _
  refine ⟨?_, fun a c' h => ?_⟩
  · unfold getU32
    repeat (refine Out.bind_ne_fuel (at_ne_fuel _ _ _) (fun _ _ => ?_))
    simp
  · simp only [getU32, Out.bind_eq_ok, Out.pure_eq, Out.ok.injEq, Prod.mk.injEq] at h
    obtain ⟨_, h1, _, _, _, _, _, _, -, rfl⟩ := h
    exact ⟨rfl, Nat.le_refl _, fun _ => at_ok h1⟩

theorem tot_u64 (n) : Tot 8 n getU64 := by
  intro c _
  refine ⟨?_, fun a c' h => ?_⟩
  · unfold getU64
    repeat (refine Out.bind_ne_fuel (at_ne_fuel _ _ _) (fun _ _ => ?_))
    simp
  · simp only [getU64, Out.bind_eq_ok, Out.pure_eq, Out.ok.injEq, Prod.mk.injEq] at h
    obtain ⟨_, h1, _, _, _, _, _, _, _, _, _, _, _, _, _, _, -, rfl⟩ := h
    exact ⟨rfl, Nat.le_refl _, fun _ => at_ok h1⟩

theorem tot_buffer (n) : Tot 4 n getBuffer := by
  refine Tot.bind (k2 := 0) (tot_u32 n) fun len => ?_
  intro c _
  refine ⟨by simp, fun a c' h => ?_⟩
  simp only [Out.pure_eq, Out.ok.injEq, Prod.mk.injEq] at h
  obtain ⟨-, rfl⟩ := h
  exact ⟨rfl, Nat.le_add_right _ _, by omega⟩

theorem tot_string (lossy) (n) : Tot 4 n (getString lossy) := Tot.map (g := textDecode lossy) (tot_buffer n)

theorem tot_readList {α} {n} {item : Cursor → Out (α × Cursor)} (h : Tot 0 n item) :
    ∀ m acc, Tot 0 n (readList item m acc)
  | 0, _ => Tot.ret _ _
  | m + 1, _ => Tot.bind (k2 := 0) h (fun _ => tot_readList h m _)

theorem tot_readObj {α} {n} {key} {item : Cursor → Out (α × Cursor)} (hk : Tot 0 n key) (h : Tot 0 n item) :
    ∀ m acc, Tot 0 n (readObj key item m acc)
  | 0, _ => Tot.ret _ _
  | m + 1, _ => Tot.bind (k2 := 0) hk (fun _ => Tot.bind (k2 := 0) h (fun _ => tot_readObj hk h m _))

theorem tot_json (lossy) : ∀ fuel, Tot 1 fuel (decodeJson lossy fuel)
  | 0 => by intro c h; omega
  | f + 1 => by
      have ih : Tot 0 f (decodeJson lossy f) := (tot_json lossy f).mono (Nat.zero_le 1) (Nat.le_refl _)
      refine Tot.bind (k2 := 0) (tot_byte _) (fun tag => ?_)
      refine Tot.ite (Tot.ret _ _) (Tot.ite (Tot.ret _ _) (Tot.ite (Tot.ret _ _) (Tot.ite ?_ (Tot.ite ?_ (Tot.ite ?_ ?_)))))
      · exact (Tot.map (g := JsJson.str) (tot_string lossy _)).mono (by omega) (Nat.le_refl _)
      · exact (Tot.map (g := JsJson.num) (tot_u64 _)).mono (by omega) (Nat.le_refl _)
      · refine Tot.mono (k := 4) (Tot.bind (k2 := 0) (tot_u32 _) (fun n => ?_)) (by omega) (Nat.le_refl _)
        exact Tot.map (g := JsJson.list) ((tot_readList ih _ _).mono (by omega) (by omega))
      · refine Tot.mono (k := 2) (Tot.bind (k2 := 0) (tot_u16 _) (fun n => ?_)) (by omega) (Nat.le_refl _)
        exact Tot.map (g := JsJson.obj)
          ((tot_readObj ((tot_string lossy _).mono (by omega) (Nat.le_refl _)) ih _ _).mono (by omega) (by omega))

theorem tot_value (lossy) : ∀ fuel, Tot 1 fuel (decodeValue lossy fuel)
  | 0 => by intro c h; omega
  | f + 1 => by
      have ih : Tot 0 f (decodeValue lossy f) := (tot_value lossy f).mono (Nat.zero_le 1) (Nat.le_refl _)
      refine Tot.bind (k2 := 0) (tot_byte _) (fun tag => ?_)
      refine Tot.ite ?_ (Tot.ite ?_ (Tot.ite ?_ (Tot.ite ?_ (Tot.ite ?_ (Tot.ite (Tot.ret _ _)
        (Tot.ite (Tot.ret _ _) (Tot.ite (Tot.ret _ _) (Tot.ite (Tot.ret _ _) (Tot.ite ?_ (Tot.ite ?_
        (Tot.ite ?_ (Tot.ite ?_ (Tot.ite ?_ (Tot.panic _ _))))))))))))))
      · exact (Tot.map (g := JsValue.u32) (tot_u32 _)).mono (by omega) (Nat.le_refl _)
      · exact (Tot.map (g := JsValue.i32) (Tot.map (g := UInt32.toInt32) (tot_u32 _))).mono (by omega) (Nat.le_refl _)
      · exact (Tot.map (g := JsValue.u64) (tot_u64 _)).mono (by omega) (Nat.le_refl _)
      · exact (Tot.map (g := JsValue.i64) (Tot.map (g := UInt64.toInt64) (tot_u64 _))).mono (by omega) (Nat.le_refl _)
      · exact (Tot.map (g := JsValue.f64) (tot_u64 _)).mono (by omega) (Nat.le_refl _)
      · exact (Tot.map (g := JsValue.vec) (tot_buffer _)).mono (by omega) (Nat.le_refl _)
      · exact (Tot.map (g := JsValue.str) (tot_string lossy _)).mono (by omega) (Nat.le_refl _)
      · refine Tot.mono (k := 4) (Tot.bind (k2 := 0) (tot_u32 _) (fun n => ?_)) (by omega) (Nat.le_refl _)
        exact Tot.map (g := JsValue.list) ((tot_readList ih _ _).mono (by omega) (by omega))
      · refine Tot.mono (k := 2) (Tot.bind (k2 := 0) (tot_u16 _) (fun n => ?_)) (by omega) (Nat.le_refl _)
        exact Tot.map (g := JsValue.obj)
          ((tot_readObj ((tot_string lossy _).mono (by omega) (Nat.le_refl _)) ih _ _).mono (by omega) (by omega))
      · exact (Tot.map (g := JsValue.json) (tot_json lossy f)).mono (by omega) (Nat.le_refl _)

/-- C16, in the browser: for every memory, every address and every size the decoder terminates (the budget given by
the size is enough), does not throw, and gives the empty list exactly when the bytes are not a value: the block
leaves the memory or reading it throws. -/
theorem C16_browser_total (lossy : List UInt8 → String) (mem : List UInt8) (ptr size : Nat) :
    decodeValue lossy (size + 1) ⟨mem, ptr, size, 0⟩ ≠ .fuel ∧
    (mem.length < ptr + size ∨ (∀ r, decodeValue lossy (size + 1) ⟨mem, ptr, size, 0⟩ ≠ .ok r) →
      jsValueDecode lossy mem ptr size = .list []) ∧
    (∀ v c, ptr + size ≤ mem.length → decodeValue lossy (size + 1) ⟨mem, ptr, size, 0⟩ = .ok (v, c) →
      jsValueDecode lossy mem ptr size = v ∧ 0 < c.pointer) := by
  have ht := tot_value lossy (size + 1) ⟨mem, ptr, size, 0⟩ (by simp)
  refine ⟨ht.1, ?_, ?_⟩
  · rintro (h | h)
    · rw [jsValueDecode, if_neg (by omega)]
    · rw [jsValueDecode]
      split
      · split
        · rename_i h'; exact absurd h' (h _)
        · rfl
      · rfl
  · intro v c hp h
    have := (ht.2 v c h).2.1
    simp only at this
    refine ⟨?_, by omega⟩
    rw [jsValueDecode, if_pos hp, h]

/-- A value, and bytes that are not one. -/
example : jsValueDecode (fun _ => "") [0, 12, 0, 0, 0, 1, 6] 1 6 = .list [.tru] ∧
    jsValueDecode (fun _ => "") [99] 0 1 = .list [] := ⟨rfl, rfl⟩

end Verif.Codec.Ts
