import Mathlib.Logic.Function.Iterate
/-!
# C63: names of static files

Model of `get_hash` and `save_with_hash` of `crates/vertigo-cli/src/build/wasm_path.rs`, which `crates/vertigo-macro/src/wasm_path.rs`
repeats. The crates `crc` and `base64` are modelled after their documentation.
-/
namespace Verif.Assets

abbrev Byte := BitVec 8

/-! ## The checksum -/

/-- The generator polynomial of CRC-64/ECMA-182, without its highest coefficient. -/
def poly : BitVec 64 := 0x42F0E1EBA9EA3693#64

/-- One bit: multiplication by `x` modulo the polynomial. -/
def shift (x : BitVec 64) : BitVec 64 := (x <<< 1) ^^^ (if x.msb then poly else 0#64)

/-- One byte. The crate uses a table of `shift^[8]`. -/
def update (crc : BitVec 64) (b : Byte) : BitVec 64 := shift^[8] (crc ^^^ (b.setWidth 64 <<< 56))

/-- `CRC.digest()`, `update(data)`, `finalize()` with `CRC_64_ECMA_182` (wasm_path.rs:108-112): the register starts with 0, nothing is
reflected, nothing is added at the end. -/
def crc64 (data : List Byte) : BitVec 64 := data.foldl update 0#64

/-! ## Base64 -/

/-- The alphabet of `URL_SAFE_NO_PAD`. -/
def sextet (n : Nat) : Char :=
  if n < 26 then Char.ofNat (65 + n)
  else if n < 52 then Char.ofNat (97 + (n - 26))
  else if n < 62 then Char.ofNat (48 + (n - 52))
  else if n = 62 then '-'
  else '_'

/-- `URL_SAFE_NO_PAD.encode`: groups of three bytes, no padding. -/
def base64 : List Nat → List Char
  | a :: b :: c :: rest =>
      sextet (a / 4) :: sextet (a % 4 * 16 + b / 16) :: sextet (b % 16 * 4 + c / 64) :: sextet (c % 64) :: base64 rest
  | [a, b] => [sextet (a / 4), sextet (a % 4 * 16 + b / 16), sextet (b % 16 * 4)]
  | [a] => [sextet (a / 4), sextet (a % 4 * 16)]
  | [] => []

/-- `u64::to_be_bytes`. -/
def beBytes (v : BitVec 64) : List Nat :=
  [v.toNat / 2 ^ 56 % 256, v.toNat / 2 ^ 48 % 256, v.toNat / 2 ^ 40 % 256, v.toNat / 2 ^ 32 % 256, v.toNat / 2 ^ 24 % 256,
    v.toNat / 2 ^ 16 % 256, v.toNat / 2 ^ 8 % 256, v.toNat % 256]

/-- wasm_path.rs:108-112 (`get_hash`). -/
def getHash (data : List Byte) : List Char := base64 (beBytes (crc64 data))

/-! ## Names of files -/

/-- `Path::file_stem` and `Path::extension` of a path with this last component. -/
def splitName (name : List Char) : List Char × Option (List Char) :=
  if name = ['.', '.'] then (name, none) else
  match name.reverse.dropWhile (· ≠ '.') with
  | [] => (name, none)
  | _ :: before =>
      if before = [] then (name, none) else (before.reverse, some (name.reverse.takeWhile (· ≠ '.')).reverse)

/-- wasm_path.rs:51-62 (`save_with_hash`): the name of the file that is written; `none`: `extension().unwrap()` panics. -/
def hashedName (name : List Char) (content : List Byte) : Option (List Char) :=
  match splitName name with
  | (stem, some ext) => some (stem ++ '.' :: getHash content ++ '.' :: ext)
  | (_, none) => none

/-! ## Proofs: the checksum -/

theorem shift_xor (x y : BitVec 64) : shift (x ^^^ y) = shift x ^^^ shift y := by
  unfold shift
  rw [BitVec.msb_xor]
  cases hx : x.msb <;> cases hy : y.msb <;> ext i <;> simp <;> grind

theorem iter_xor (n : Nat) (x y : BitVec 64) : shift^[n] (x ^^^ y) = shift^[n] x ^^^ shift^[n] y := by
  induction n generalizing x y with
  | zero => rfl
  | succ n ih => simp only [Function.iterate_succ, Function.comp, shift_xor, ih]

theorem shift_zero : shift 0#64 = 0#64 := by decide

theorem iter_zero (n : Nat) : shift^[n] 0#64 = 0#64 := by
  induction n with
  | zero => rfl
  | succ n ih => simp only [Function.iterate_succ, Function.comp, shift_zero, ih]

theorem shift_eq_zero {x : BitVec 64} (h : shift x = 0#64) : x = 0#64 := by
  unfold shift at h
  have hm : x.msb = false := by
    by_contra hm
    have hm : x.msb = true := by simpa using hm
    have := congrArg (·.getLsbD 0) h
    simp [hm, poly] at this
  simp only [hm, Bool.false_eq_true, ↓reduceIte, BitVec.xor_zero] at h
  ext i hi
  by_cases h63 : i = 63
  · subst h63
    simpa [BitVec.msb_eq_getLsbD_last] using hm
  · have := congrArg (·.getLsbD (i + 1)) h
    simp at this
    have h2 := this (by omega)
    rw [← BitVec.getLsbD_eq_getElem, h2]; simp

theorem iter_eq_zero {n : Nat} {x : BitVec 64} (h : shift^[n] x = 0#64) : x = 0#64 := by
  induction n generalizing x with
  | zero => exact h
  | succ n ih => exact shift_eq_zero (ih h)

theorem setWidth_xor (b b' : Byte) : (b ^^^ b').setWidth 64 <<< 56 = (b.setWidth 64 <<< 56) ^^^ (b'.setWidth 64 <<< 56) := by
  rw [BitVec.setWidth_xor, BitVec.shiftLeft_xor_distrib]

/-- Two checksums, bit by bit. -/
theorem update_xor (c c' : BitVec 64) (b b' : Byte) : update c b ^^^ update c' b' = update (c ^^^ c') (b ^^^ b') := by
  unfold update
  rw [← iter_xor, setWidth_xor]
  have : c ^^^ b.setWidth 64 <<< 56 ^^^ (c' ^^^ b'.setWidth 64 <<< 56) =
      c ^^^ c' ^^^ (b.setWidth 64 <<< 56 ^^^ b'.setWidth 64 <<< 56) := by
    generalize b.setWidth 64 <<< 56 = x
    generalize b'.setWidth 64 <<< 56 = y
    ac_rfl
  rw [this]

/-- The difference of two checksums is the checksum of the difference. -/
theorem fold_xor (a a' : List Byte) (h : a.length = a'.length) (c c' : BitVec 64) :
    a.foldl update c ^^^ a'.foldl update c' = (List.zipWith (· ^^^ ·) a a').foldl update (c ^^^ c') := by
  induction a generalizing a' c c' with
  | nil =>
      cases a' with
      | nil => rfl
      | cons => simp at h
  | cons b a ih =>
      cases a' with
      | nil => simp at h
      | cons b' a' =>
          simp only [List.foldl_cons, List.zipWith_cons_cons]
          rw [ih a' (by simpa using h), update_xor]

theorem update_zero (c : BitVec 64) : update c 0 = shift^[8] c := by
  unfold update
  rw [show (0 : Byte).setWidth 64 <<< 56 = 0#64 from by decide, BitVec.xor_zero]

/-- Bytes that are the same change nothing about whether the checksums differ. -/
theorem fold_same (a : List Byte) {c c' : BitVec 64} (h : a.foldl update c = a.foldl update c') : c = c' := by
  induction a generalizing c c' with
  | nil => exact h
  | cons b a ih =>
      have h := ih (c := update c b) (c' := update c' b) h
      have h : update c b ^^^ update c' b = 0#64 := by rw [h, BitVec.xor_self]
      rw [update_xor, BitVec.xor_self] at h
      have h := iter_eq_zero ((update_zero _).symm.trans h)
      exact BitVec.xor_eq_zero_iff.mp h

theorem shift_small {x : BitVec 64} (h : x.msb = false) : shift x = x <<< 1 := by simp [shift, h]

theorem iter_small (n : Nat) (x : BitVec 64) (hn : n ≤ 64) (h : ∀ i, 64 - n ≤ i → x.getLsbD i = false) : shift^[n] x = x <<< n := by
  induction n generalizing x with
  | zero => simp
  | succ n ih =>
      have hm : x.msb = false := by
        rw [BitVec.msb_eq_getLsbD_last]
        exact h 63 (by omega)
      rw [Function.iterate_succ, Function.comp, shift_small hm, ih _ (by omega)]
      · rw [← BitVec.shiftLeft_add, Nat.add_comm]
      · intro i hi
        rw [BitVec.getLsbD_shiftLeft]
        by_cases h1 : i < 1
        · simp [h1]
        · rw [h (i - 1) (by omega)]; simp

/-- Up to eight bytes as one number, the first byte highest. -/
def word : List Byte → BitVec 64
  | [] => 0#64
  | b :: rest => (b.setWidth 64 <<< 56) ^^^ (word rest >>> 8)

theorem word_low (a : List Byte) : ∀ i, i + 8 * a.length < 64 → (word a).getLsbD i = false := by
  induction a with
  | nil => simp [word]
  | cons b a ih =>
      intro i hi
      simp only [List.length_cons] at hi
      rw [word, BitVec.getLsbD_xor, BitVec.getLsbD_shiftLeft, BitVec.getLsbD_ushiftRight, ih (8 + i) (by omega)]
      have : i < 56 := by omega
      simp [this]

theorem word_shift (a : List Byte) (h : a.length ≤ 7) : shift^[8] (word a >>> 8) = word a := by
  rw [iter_small 8 _ (by omega)]
  · ext i hi
    rw [← BitVec.getLsbD_eq_getElem, ← BitVec.getLsbD_eq_getElem, BitVec.getLsbD_shiftLeft, BitVec.getLsbD_ushiftRight]
    by_cases h8 : i < 8
    · rw [word_low a i (by omega)]; simp [h8]
    · simp [h8, hi, show 8 + (i - 8) = i from by omega]
  · intro i hi
    rw [BitVec.getLsbD_ushiftRight]
    exact BitVec.getLsbD_of_ge _ _ (by omega)

theorem fold_word (a : List Byte) (h : a.length ≤ 8) (c : BitVec 64) :
    a.foldl update c = shift^[8 * a.length] (c ^^^ word a) := by
  induction a generalizing c with
  | nil => simp [word]
  | cons b a ih =>
      simp only [List.length_cons] at h
      rw [List.foldl_cons, ih (by omega)]
      unfold update
      rw [List.length_cons, Nat.mul_add, Function.iterate_add, Function.comp, Nat.mul_one, word]
      conv => lhs; rw [← word_shift a (by omega)]
      rw [← iter_xor, BitVec.xor_assoc]

theorem word_zero (a : List Byte) (h : a.length ≤ 8) (hw : word a = 0#64) : ∀ b ∈ a, b = 0 := by
  induction a with
  | nil => simp
  | cons b a ih =>
      simp only [List.length_cons] at h
      have hb : b = 0 := by
        ext i hi
        have h1 := congrArg (·.getLsbD (i + 56)) hw
        simp only [word, BitVec.getLsbD_xor, BitVec.getLsbD_shiftLeft, BitVec.getLsbD_ushiftRight] at h1
        rw [BitVec.getLsbD_of_ge (word a) (8 + (i + 56)) (by omega)] at h1
        simp [show i + 56 < 64 from by omega, show ¬ i + 56 < 56 from by omega, show i < 64 from by omega] at h1
        rw [← BitVec.getLsbD_eq_getElem, h1]
        simp
      have ha : word a = 0#64 := by
        have h1 : word a >>> 8 = 0#64 := by
          rw [word, hb] at hw
          rwa [show (0 : Byte).setWidth 64 <<< 56 = 0#64 from by decide, BitVec.zero_xor] at hw
        rw [← word_shift a (by omega), h1, iter_zero]
      intro b' hb'
      rcases List.mem_cons.mp hb' with rfl | hb'
      · exact hb
      · exact ih (by omega) ha b' hb'

theorem zip_zero (a a' : List Byte) (h : a.length = a'.length) (hz : ∀ b ∈ List.zipWith (· ^^^ ·) a a', b = 0) : a = a' := by
  induction a generalizing a' with
  | nil =>
      cases a' with
      | nil => rfl
      | cons => simp at h
  | cons b a ih =>
      cases a' with
      | nil => simp at h
      | cons b' a' =>
          simp only [List.zipWith_cons_cons, List.mem_cons, forall_eq_or_imp] at hz
          rw [ih a' (by simpa using h) hz.2, BitVec.xor_eq_zero_iff.mp hz.1]

/-- Changes within eight bytes change the checksum. -/
theorem crc_window (pre a a' post : List Byte) (hl : a.length = a'.length) (h8 : a.length ≤ 8)
    (h : crc64 (pre ++ a ++ post) = crc64 (pre ++ a' ++ post)) : a = a' := by
  unfold crc64 at h
  simp only [List.foldl_append] at h
  have h := fold_same post h
  have h : a.foldl update (pre.foldl update 0#64) ^^^ a'.foldl update (pre.foldl update 0#64) = 0#64 := by
    rw [h, BitVec.xor_self]
  rw [fold_xor a a' hl, BitVec.xor_self, fold_word _ (by simp [hl] at h8 ⊢; omega), BitVec.zero_xor] at h
  have h := word_zero _ (by simp [hl] at h8 ⊢; omega) (iter_eq_zero h)
  exact zip_zero a a' hl h

/-- The check value of CRC-64/ECMA-182 in the catalogue: the checksum of "123456789". -/
example : crc64 ("123456789".toList.map fun c => BitVec.ofNat 8 c.toNat) = 0x6C40DF5F0B497347#64 := by decide +kernel

/-! ## Proofs: Base64 -/

theorem sextet_injective {m n : Nat} (hm : m < 64) (hn : n < 64) (h : sextet m = sextet n) : m = n := by
  have : ∀ m n : Fin 64, sextet m = sextet n → m = n := by decide +kernel
  simpa using this ⟨m, hm⟩ ⟨n, hn⟩ h

theorem sextet_safe {n : Nat} (hn : n < 64) : (sextet n).isAlphanum ∨ sextet n = '-' ∨ sextet n = '_' := by
  have : ∀ n : Fin 64, (sextet n).isAlphanum ∨ sextet n = '-' ∨ sextet n = '_' := by decide +kernel
  exact this ⟨n, hn⟩

theorem base64_injective : ∀ (n : Nat) (x y : List Nat), x.length = n → y.length = n → (∀ b ∈ x, b < 256) → (∀ b ∈ y, b < 256) →
    base64 x = base64 y → x = y := by
  intro n
  induction n using Nat.strongRecOn with
  | _ n ih =>
    intro x y hx hy bx bY h
    match x, y with
    | [], [] => rfl
    | [a], [a'] =>
        simp only [List.mem_singleton, forall_eq] at bx bY
        simp only [base64, List.cons.injEq, and_true] at h
        have h1 := sextet_injective (by omega) (by omega) h.1
        have h2 := sextet_injective (by omega) (by omega) h.2
        simp only [List.cons.injEq, and_true]; omega
    | [a, b], [a', b'] =>
        simp only [List.mem_cons, List.not_mem_nil, or_false, forall_eq_or_imp, forall_eq] at bx bY
        simp only [base64, List.cons.injEq, and_true] at h
        have h1 := sextet_injective (by omega) (by omega) h.1
        have h2 := sextet_injective (by omega) (by omega) h.2.1
        have h3 := sextet_injective (by omega) (by omega) h.2.2
        simp only [List.cons.injEq, and_true]; omega
    | a :: b :: c :: r, a' :: b' :: c' :: r' =>
        simp only [List.mem_cons, forall_eq_or_imp] at bx bY
        simp only [List.length_cons] at hx hy
        simp only [base64, List.cons.injEq] at h
        have h1 := sextet_injective (by omega) (by omega) h.1
        have h2 := sextet_injective (by omega) (by omega) h.2.1
        have h3 := sextet_injective (by omega) (by omega) h.2.2.1
        have h4 := sextet_injective (by omega) (by omega) h.2.2.2.1
        have h5 := ih (n - 3) (by omega) r r' (by omega) (by omega) bx.2.2.2 bY.2.2.2 h.2.2.2.2
        simp only [List.cons.injEq]
        exact ⟨by omega, by omega, by omega, h5⟩
    | [], _ :: _ => simp at hx hy; omega
    | [_], [] => simp at hx hy; omega
    | [_], _ :: _ :: _ => simp at hx hy; omega
    | [_, _], [] => simp at hx hy; omega
    | [_, _], [_] => simp at hx hy; omega
    | [_, _], _ :: _ :: _ :: _ => simp at hx hy; omega
    | _ :: _ :: _ :: _, [] => simp at hx hy; omega
    | _ :: _ :: _ :: _, [_] => simp at hx hy; omega
    | _ :: _ :: _ :: _, [_, _] => simp at hx hy; omega

theorem beBytes_lt (v : BitVec 64) : ∀ b ∈ beBytes v, b < 256 := by
  simp only [beBytes, List.mem_cons, List.not_mem_nil, or_false]
  rintro b (rfl | rfl | rfl | rfl | rfl | rfl | rfl | rfl) <;> exact Nat.mod_lt _ (by decide)

theorem beBytes_injective {v w : BitVec 64} (h : beBytes v = beBytes w) : v = w := by
  apply BitVec.eq_of_toNat_eq
  have hv := v.isLt
  have hw := w.isLt
  simp only [beBytes, List.cons.injEq, and_true] at h
  generalize v.toNat = m at *
  generalize w.toNat = n at *
  obtain ⟨h0, h1, h2, h3, h4, h5, h6, h7⟩ := h
  have e1 : m / 2 ^ 8 = n / 2 ^ 8 → m = n := by intro e; omega
  have e2 : m / 2 ^ 16 = n / 2 ^ 16 → m / 2 ^ 8 = n / 2 ^ 8 := by intro e; omega
  have e3 : m / 2 ^ 24 = n / 2 ^ 24 → m / 2 ^ 16 = n / 2 ^ 16 := by intro e; omega
  have e4 : m / 2 ^ 32 = n / 2 ^ 32 → m / 2 ^ 24 = n / 2 ^ 24 := by intro e; omega
  have e5 : m / 2 ^ 40 = n / 2 ^ 40 → m / 2 ^ 32 = n / 2 ^ 32 := by intro e; omega
  have e6 : m / 2 ^ 48 = n / 2 ^ 48 → m / 2 ^ 40 = n / 2 ^ 40 := by intro e; omega
  have e7 : m / 2 ^ 56 = n / 2 ^ 56 → m / 2 ^ 48 = n / 2 ^ 48 := by intro e; omega
  exact e1 (e2 (e3 (e4 (e5 (e6 (e7 (by omega)))))))

theorem hash_injective {a b : List Byte} (h : getHash a = getHash b) : crc64 a = crc64 b :=
  beBytes_injective (base64_injective 8 _ _ rfl rfl (beBytes_lt _) (beBytes_lt _) h)

theorem base64_safe : ∀ (n : Nat) (x : List Nat), x.length = n → (∀ b ∈ x, b < 256) → ∀ c ∈ base64 x, c.isAlphanum ∨ c = '-' ∨ c = '_' := by
  intro n
  induction n using Nat.strongRecOn with
  | _ n ih =>
    intro x hx bx
    match x with
    | [] => simp [base64]
    | [a] =>
        simp only [List.mem_singleton, forall_eq] at bx
        simp only [base64, List.mem_cons, List.not_mem_nil, or_false]
        rintro c (rfl | rfl) <;> exact sextet_safe (by omega)
    | [a, b] =>
        simp only [List.mem_cons, List.not_mem_nil, or_false, forall_eq_or_imp, forall_eq] at bx
        simp only [base64, List.mem_cons, List.not_mem_nil, or_false]
        rintro c (rfl | rfl | rfl) <;> exact sextet_safe (by omega)
    | a :: b :: d :: r =>
        simp only [List.mem_cons, forall_eq_or_imp] at bx
        simp only [List.length_cons] at hx
        simp only [base64, List.mem_cons]
        rintro c (rfl | rfl | rfl | rfl | hc)
        · exact sextet_safe (by omega)
        · exact sextet_safe (by omega)
        · exact sextet_safe (by omega)
        · exact sextet_safe (by omega)
        · exact ih (n - 3) (by omega) r (by omega) bx.2.2.2 c hc

theorem hash_length (a : List Byte) : (getHash a).length = 11 := by
  unfold getHash
  rw [beBytes]
  generalize _ % 256 = p0, _ % 256 = p1
  rfl

theorem hash_safe (a : List Byte) : ∀ c ∈ getHash a, c.isAlphanum ∨ c = '-' ∨ c = '_' :=
  base64_safe 8 _ rfl (beBytes_lt _)

end Verif.Assets
