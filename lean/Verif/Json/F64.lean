/-!
# Conversions between integers and `f64`

The casts `n as f64` and `x as u32` (Rust reference, "Numeric cast": integer to float rounds to
nearest, ties to even; float to integer truncates, saturates, and maps NaN to 0), on the bits of
the float.
-/
namespace Verif.Json

/-- `m / 2^k`, rounded to nearest, ties to even. -/
def roundShift (m k : Nat) : Nat :=
  let q := m / 2 ^ k
  let r := m % 2 ^ k
  if 2 ^ k < 2 * r ∨ (2 ^ k = 2 * r ∧ q % 2 = 1) then q + 1 else q

/-- The bits of the float nearest to `m` (which has to be below 2^1023). A carry of the
rounding goes into the exponent. -/
def natBits (m : Nat) : Nat :=
  if m = 0 then 0
  else
    let e := m.log2
    if e ≤ 52 then (e + 1023) * 2 ^ 52 + (m * 2 ^ (52 - e) - 2 ^ 52)
    else (e + 1023) * 2 ^ 52 + (roundShift m (e - 52) - 2 ^ 52)

/-- `i as f64`. -/
def intToF64 (i : Int) : UInt64 :=
  if i < 0 then UInt64.ofNat (2 ^ 63 + natBits i.natAbs) else UInt64.ofNat (natBits i.natAbs)

/-- The absolute value of a finite float, truncated. -/
def truncMag (bits : Nat) : Nat :=
  let e := bits / 2 ^ 52 % 2048
  let frac := bits % 2 ^ 52
  if e = 0 then frac / 2 ^ 1074
  else if 1075 ≤ e then (2 ^ 52 + frac) * 2 ^ (e - 1075) else (2 ^ 52 + frac) / 2 ^ (1075 - e)

/-- `x as <integer type with range lo..hi>`. -/
def f64ToInt (lo hi : Int) (bits : UInt64) : Int :=
  let b := bits.toNat
  let neg := decide (2 ^ 63 ≤ b)
  if b / 2 ^ 52 % 2048 = 2047 then
    if b % 2 ^ 52 ≠ 0 then 0 else if neg then lo else hi
  else
    let v : Int := if neg then -(truncMag b : Int) else truncMag b
    if v < lo then lo else if hi < v then hi else v

/-! ## Specification -/

/-- An integer that is exactly a float (as far as integers below 2^1023 are concerned). -/
def Representable (i : Int) : Prop := ∃ a k : Nat, i.natAbs = a * 2 ^ k ∧ a < 2 ^ 53

/-! ## Proofs -/

/-- What a float cast and back makes of `m`. -/
def rnd (m : Nat) : Nat := if m.log2 ≤ 52 then m else roundShift m (m.log2 - 52) * 2 ^ (m.log2 - 52)

theorem roundShift_bounds {m k : Nat} (h1 : 2 ^ (52 + k) ≤ m) (h2 : m < 2 ^ (53 + k)) :
    2 ^ 52 ≤ roundShift m k ∧ roundShift m k ≤ 2 ^ 53 := by
  have hp : 0 < 2 ^ k := Nat.two_pow_pos k
  have a1 : 2 ^ 52 ≤ m / 2 ^ k := (Nat.le_div_iff_mul_le hp).mpr (by rw [← Nat.pow_add]; exact h1)
  have a2 : m / 2 ^ k < 2 ^ 53 := (Nat.div_lt_iff_lt_mul hp).mpr (by rw [← Nat.pow_add]; exact h2)
  unfold roundShift
  simp only
  split <;> omega

theorem natBits_lt {m : Nat} (h : m < 2 ^ 64) : natBits m < 1088 * 2 ^ 52 := by
  unfold natBits
  split
  · decide
  rename_i h0
  have l1 := (Nat.le_log2 h0 (k := m.log2)).mp (Nat.le_refl _)
  have l2 := (Nat.log2_lt h0 (k := m.log2 + 1)).mp (Nat.lt_succ_self _)
  have l3 : m.log2 < 64 := (Nat.log2_lt h0).mpr h
  simp only
  split
  · rename_i h52
    have : m * 2 ^ (52 - m.log2) < 2 ^ 53 := by
      calc m * 2 ^ (52 - m.log2) < 2 ^ (m.log2 + 1) * 2 ^ (52 - m.log2) := Nat.mul_lt_mul_of_pos_right l2 (Nat.two_pow_pos _)
        _ = 2 ^ 53 := by rw [← Nat.pow_add]; congr 1; omega
    omega
  · rename_i h52
    have := roundShift_bounds (m := m) (k := m.log2 - 52)
      (by rw [show 52 + (m.log2 - 52) = m.log2 by omega]; exact l1)
      (by rw [show 53 + (m.log2 - 52) = m.log2 + 1 by omega]; exact l2)
    omega

theorem truncMag_parts {e f : Nat} (he : e < 2048) (h0 : 0 < e) (hf : f < 2 ^ 52) :
    truncMag (e * 2 ^ 52 + f) = if 1075 ≤ e then (2 ^ 52 + f) * 2 ^ (e - 1075) else (2 ^ 52 + f) / 2 ^ (1075 - e) := by
  have a : (e * 2 ^ 52 + f) / 2 ^ 52 % 2048 = e := by omega
  have b : (e * 2 ^ 52 + f) % 2 ^ 52 = f := by omega
  unfold truncMag
  simp only [a, b]
  rw [if_neg (by omega)]

theorem truncMag_natBits {m : Nat} (h : m < 2 ^ 64) : truncMag (natBits m) = rnd m := by
  unfold natBits
  split
  · rename_i h0; subst h0; simp [truncMag, rnd]
  rename_i h0
  have l1 := (Nat.le_log2 h0 (k := m.log2)).mp (Nat.le_refl _)
  have l2 := (Nat.log2_lt h0 (k := m.log2 + 1)).mp (Nat.lt_succ_self _)
  have l3 : m.log2 < 64 := (Nat.log2_lt h0).mpr h
  unfold rnd
  simp only
  split
  · rename_i h52
    have hhi : m * 2 ^ (52 - m.log2) < 2 ^ 53 := by
      calc m * 2 ^ (52 - m.log2) < 2 ^ (m.log2 + 1) * 2 ^ (52 - m.log2) := Nat.mul_lt_mul_of_pos_right l2 (Nat.two_pow_pos _)
        _ = 2 ^ 53 := by rw [← Nat.pow_add]; congr 1; omega
    have hlo : 2 ^ 52 ≤ m * 2 ^ (52 - m.log2) := by
      calc 2 ^ 52 = 2 ^ m.log2 * 2 ^ (52 - m.log2) := by rw [← Nat.pow_add]; congr 1; omega
        _ ≤ _ := Nat.mul_le_mul_right _ l1
    rw [truncMag_parts (by omega) (by omega) (by omega)]
    rw [show 2 ^ 52 + (m * 2 ^ (52 - m.log2) - 2 ^ 52) = m * 2 ^ (52 - m.log2) by omega]
    split
    · have : m.log2 = 52 := by omega
      simp [this]
    · rw [show 1075 - (m.log2 + 1023) = 52 - m.log2 by omega, Nat.mul_div_cancel _ (Nat.two_pow_pos _)]
  · rename_i h52
    have hb := roundShift_bounds (m := m) (k := m.log2 - 52)
      (by rw [show 52 + (m.log2 - 52) = m.log2 by omega]; exact l1)
      (by rw [show 53 + (m.log2 - 52) = m.log2 + 1 by omega]; exact l2)
    by_cases hc : roundShift m (m.log2 - 52) = 2 ^ 53
    · rw [hc, show (m.log2 + 1023) * 2 ^ 52 + (2 ^ 53 - 2 ^ 52) = (m.log2 + 1024) * 2 ^ 52 + 0 by omega,
        truncMag_parts (by omega) (by omega) (by decide), if_pos (by omega),
        show m.log2 + 1024 - 1075 = (m.log2 - 52) + 1 by omega, Nat.pow_succ]
      omega
    · rw [truncMag_parts (by omega) (by omega) (by omega), if_pos (by omega),
        show m.log2 + 1023 - 1075 = m.log2 - 52 by omega,
        show 2 ^ 52 + (roundShift m (m.log2 - 52) - 2 ^ 52) = roundShift m (m.log2 - 52) by omega]

theorem rnd_eq_iff {m : Nat} : rnd m = m ↔ ∃ a k : Nat, m = a * 2 ^ k ∧ a < 2 ^ 53 := by
  unfold rnd
  by_cases h0 : m = 0
  · subst h0; exact ⟨fun _ => ⟨0, 0, by simp⟩, fun _ => by simp⟩
  have l1 := (Nat.le_log2 h0 (k := m.log2)).mp (Nat.le_refl _)
  have l2 := (Nat.log2_lt h0 (k := m.log2 + 1)).mp (Nat.lt_succ_self _)
  split
  · rename_i h52
    refine ⟨fun _ => ⟨m, 0, by simp, ?_⟩, fun _ => rfl⟩
    exact Nat.lt_of_lt_of_le l2 (Nat.pow_le_pow_right (by decide) (by omega))
  · rename_i h52
    have hp := Nat.two_pow_pos (m.log2 - 52)
    constructor
    · intro h
      refine ⟨m / 2 ^ (m.log2 - 52), m.log2 - 52, ?_, ?_⟩
      · exact (Nat.div_mul_cancel ⟨_, by rw [Nat.mul_comm]; exact h.symm⟩).symm
      · rw [Nat.div_lt_iff_lt_mul hp, ← Nat.pow_add]
        rw [show 53 + (m.log2 - 52) = m.log2 + 1 by omega]; exact l2
    · rintro ⟨a, k, hm, ha⟩
      have hk : m.log2 - 52 ≤ k := by
        have : 2 ^ m.log2 < 2 ^ (53 + k) := by
          calc 2 ^ m.log2 ≤ m := l1
            _ = a * 2 ^ k := hm
            _ < 2 ^ 53 * 2 ^ k := Nat.mul_lt_mul_of_pos_right ha (Nat.two_pow_pos k)
            _ = 2 ^ (53 + k) := by rw [← Nat.pow_add]
        have := (Nat.pow_lt_pow_iff_right (by decide)).mp this
        omega
      have hd : 2 ^ (m.log2 - 52) ∣ m := hm ▸ Nat.dvd_mul_left_of_dvd (Nat.pow_dvd_pow 2 hk) a
      have hr : m % 2 ^ (m.log2 - 52) = 0 := Nat.mod_eq_zero_of_dvd hd
      unfold roundShift
      simp only [hr]
      rw [if_neg (by omega)]
      exact Nat.div_mul_cancel hd

theorem f64ToInt_intToF64 {lo hi i : Int} (h : i.natAbs < 2 ^ 64) :
    f64ToInt lo hi (intToF64 i) =
      let v : Int := if i < 0 then -(rnd i.natAbs : Int) else rnd i.natAbs
      if v < lo then lo else if hi < v then hi else v := by
  have hb := natBits_lt h
  have ht := truncMag_natBits h
  unfold intToF64 f64ToInt
  by_cases hi0 : i < 0
  · simp only [hi0, if_true]
    have e : (UInt64.ofNat (2 ^ 63 + natBits i.natAbs)).toNat = 2 ^ 63 + natBits i.natAbs := by
      rw [UInt64.toNat_ofNat']; omega
    rw [e]
    have t : truncMag (2 ^ 63 + natBits i.natAbs) = truncMag (natBits i.natAbs) := by
      have a : (2 ^ 63 + natBits i.natAbs) / 2 ^ 52 % 2048 = natBits i.natAbs / 2 ^ 52 % 2048 := by omega
      have b : (2 ^ 63 + natBits i.natAbs) % 2 ^ 52 = natBits i.natAbs % 2 ^ 52 := by omega
      unfold truncMag; rw [a, b]
    rw [if_neg (by omega), t, ht]
    simp
  · simp only [hi0, if_false]
    have e : (UInt64.ofNat (natBits i.natAbs)).toNat = natBits i.natAbs := by
      rw [UInt64.toNat_ofNat']; omega
    rw [e, if_neg (by omega), ht]
    rw [decide_eq_false (by omega)]
    simp

/-- A representable integer in the range of the type survives. -/
theorem cast_roundtrip {lo hi i : Int} (h : i.natAbs < 2 ^ 64) (hr : Representable i) (h1 : lo ≤ i) (h2 : i ≤ hi) :
    f64ToInt lo hi (intToF64 i) = i := by
  rw [f64ToInt_intToF64 h, rnd_eq_iff.mpr hr]
  simp only
  split <;> split <;> try split
  all_goals omega

theorem representable_of_lt {i : Int} (h : i.natAbs < 2 ^ 53) : Representable i := ⟨i.natAbs, 0, by simp, h⟩

theorem rnd_le {m : Nat} (n : Nat) (hm : m ≤ 2 ^ n) : rnd m ≤ 2 ^ n := by
  unfold rnd
  split
  · exact hm
  rename_i h52
  have h0 : m ≠ 0 := by rintro rfl; simp at h52
  have l2 := (Nat.log2_lt h0 (k := m.log2 + 1)).mp (Nat.lt_succ_self _)
  have l1 := (Nat.le_log2 h0 (k := m.log2)).mp (Nat.le_refl _)
  by_cases he : m.log2 < n
  · have hb := roundShift_bounds (m := m) (k := m.log2 - 52)
      (by rw [show 52 + (m.log2 - 52) = m.log2 by omega]; exact l1)
      (by rw [show 53 + (m.log2 - 52) = m.log2 + 1 by omega]; exact l2)
    calc roundShift m (m.log2 - 52) * 2 ^ (m.log2 - 52) ≤ 2 ^ 53 * 2 ^ (m.log2 - 52) := Nat.mul_le_mul_right _ hb.2
      _ = 2 ^ (m.log2 + 1) := by rw [← Nat.pow_add]; congr 1; omega
      _ ≤ 2 ^ n := Nat.pow_le_pow_right (by decide) (by omega)
  · have : m = 2 ^ n := by
      have := Nat.pow_le_pow_right (n := 2) (by decide) (show n ≤ m.log2 by omega)
      omega
    have hr : rnd m = m := rnd_eq_iff.mpr ⟨1, n, by omega, by decide⟩
    unfold rnd at hr
    rw [if_neg h52] at hr
    omega

/-- `u64`: exactly the representable values survive, and the largest one. -/
theorem u64_roundtrip_iff {i : Int} (h0 : 0 ≤ i) (h1 : i ≤ 2 ^ 64 - 1) :
    f64ToInt 0 (2 ^ 64 - 1) (intToF64 i) = i ↔ Representable i ∨ i = 2 ^ 64 - 1 := by
  have h : i.natAbs < 2 ^ 64 := by omega
  have hle := rnd_le (m := i.natAbs) 64 (by omega)
  unfold Representable
  rw [f64ToInt_intToF64 h, ← rnd_eq_iff]
  simp only [show ¬ i < 0 by omega, if_false]
  by_cases hmax : i = 2 ^ 64 - 1
  · have : rnd i.natAbs = 2 ^ 64 := by subst hmax; decide +kernel
    rw [this]; simp [hmax]
  · split
    · omega
    · split <;> omega

/-- `i64`: the same. -/
theorem i64_roundtrip_iff {i : Int} (h0 : -2 ^ 63 ≤ i) (h1 : i ≤ 2 ^ 63 - 1) :
    f64ToInt (-2 ^ 63) (2 ^ 63 - 1) (intToF64 i) = i ↔ Representable i ∨ i = 2 ^ 63 - 1 := by
  have h : i.natAbs < 2 ^ 64 := by omega
  have hle := rnd_le (m := i.natAbs) 63 (by omega)
  unfold Representable
  rw [f64ToInt_intToF64 h, ← rnd_eq_iff]
  by_cases hmax : i = 2 ^ 63 - 1
  · have : rnd i.natAbs = 2 ^ 63 := by subst hmax; decide +kernel
    rw [this]; subst hmax; simp
  · by_cases hi : i < 0
    · simp only [hi, if_true]
      split
      · omega
      · split <;> omega
    · simp only [hi, if_false]
      split
      · omega
      · split <;> omega

example : intToF64 1 = 0x3ff0000000000000 ∧ intToF64 (-2) = 0xc000000000000000 ∧ intToF64 (2 ^ 53 + 1) = intToF64 (2 ^ 53) ∧
    intToF64 (2 ^ 53 + 3) = intToF64 (2 ^ 53 + 4) ∧ f64ToInt 0 255 0x4004000000000000 = 2 := by decide +kernel

end Verif.Json
