/-!
# C81: blocks of memory

Sources: `crates/vertigo/src/driver_module/js_value/{memory_block,memory_block_write,memory_block_read}.rs`.

`MemoryBlock` is an exported type with safe functions; inside it uses raw pointers. The model has the memory of Rust: allocations
with a size, an alignment and bytes that are initialised or not; a pointer belongs to one allocation. Undefined behaviour is an outcome.
The program is any sequence of uses of the safe functions.

Simplifications: pointers have 32 bits (`wasm32`), and arithmetic wraps around, as in the release builds of `vertigo build`. A program that
panics does nothing afterwards. A variable that is not there can not be used: such an operation does nothing. An allocation may fail
at any time (`granted`).
-/
namespace Verif.Unsafe

/-! ## Model -/

/-- How an operation ends. -/
inductive Res (α : Type) where
  | ok (a : α)
  | panic
  | ub

instance : Monad Res where
  pure := .ok
  bind x f := match x with | .ok a => f a | .panic => .panic | .ub => .ub

/-- `std::alloc::Layout` -/
structure Layout where
  size : Nat
  align : Nat
  deriving DecidableEq

/-- A live allocation. -/
structure Alloc where
  id : Nat
  layout : Layout
  bytes : List (Option UInt8)

/-- The allocations that are live; `next` is the id of the next one. -/
structure Heap where
  live : List Alloc
  next : Nat

/-- The live allocation of a pointer. -/
def Heap.find (h : Heap) (ptr : Nat) : Option Alloc := h.live.find? fun a => a.id == ptr

/-- `std::alloc::alloc`: new memory is not initialised. -/
def Heap.alloc (h : Heap) (layout : Layout) : Heap × Nat :=
  (⟨⟨h.next, layout, List.replicate layout.size none⟩ :: h.live, h.next + 1⟩, h.next)

/-- `std::alloc::dealloc`: the layout must be the one of the allocation; with `strict = false` the alignment does not matter (as it is for the
allocator of `wasm32-unknown-unknown`, for alignments up to 8). -/
def Heap.dealloc (strict : Bool) (h : Heap) (ptr : Nat) (layout : Layout) : Res Heap :=
  match h.find ptr with
  | some a =>
      if a.layout.size = layout.size ∧ (strict = true → a.layout.align = layout.align) then
        .ok { h with live := h.live.filter fun a => a.id != ptr }
      else .ub
  | none => .ub

/-- `std::ptr::copy` of `data` to `offset` bytes behind a pointer: inside of one live allocation. -/
def Heap.copy (h : Heap) (ptr : Nat) (offset : Int) (data : List UInt8) : Res Heap :=
  match h.find ptr with
  | some a =>
      if 0 ≤ offset ∧ offset + data.length ≤ a.layout.size then
        .ok { h with live := h.live.map fun a => if a.id = ptr then
          { a with bytes := a.bytes.take offset.toNat ++ data.map some ++ a.bytes.drop (offset.toNat + data.length) } else a }
      else .ub
  | none => .ub

/-- `Layout::from_size_align` for `align` a power of two: the size, rounded up, is at most `isize::MAX`. -/
def Layout.fromSizeAlign (size align : Nat) : Option Layout := if size ≤ 2 ^ 31 - align then some ⟨size, align⟩ else none

/-- memory_block.rs:6-26 (`alloc_memory`); `usize` is aligned to 4 bytes. -/
def allocMemory (h : Heap) (granted : Bool) (size : Nat) : Res (Heap × Nat × Layout) :=
  match Layout.fromSizeAlign size 4 with
  | some layout =>
      if 0 < layout.size then
        if granted then
          let (h, ptr) := h.alloc layout
          .ok (h, ptr, layout)
        else .panic
      else .panic
  | none => .panic

/-- memory_block.rs:28-33 -/
structure MemoryBlock where
  ptr : Nat
  layout : Layout
  size : UInt32

/-- memory_block.rs:36-40 -/
def MemoryBlock.new (h : Heap) (granted : Bool) (size : UInt32) : Res (Heap × MemoryBlock) := do
  let (h, ptr, layout) ← allocMemory h granted size.toNat
  .ok (h, ⟨ptr, layout, size⟩)

/-- `offset as isize` -/
def asIsize (offset : UInt32) : Int := if offset.toNat < 2 ^ 31 then offset.toNat else (offset.toNat : Int) - 2 ^ 32

/-- memory_block.rs:58-73 -/
def MemoryBlock.write (h : Heap) (b : MemoryBlock) (offset : UInt32) (data : List UInt8) : Res Heap :=
  let dataLen := UInt32.ofNat data.length
  if offset + dataLen ≤ b.size then h.copy b.ptr (asIsize offset) data
  else .panic

/-- memory_block_write.rs:3-7 -/
structure MemoryBlockWrite where
  block : MemoryBlock
  offset : UInt32

/-- memory_block_write.rs:18-21 -/
def MemoryBlockWrite.write (h : Heap) (w : MemoryBlockWrite) (data : List UInt8) : Res (Heap × MemoryBlockWrite) := do
  let h ← w.block.write h w.offset data
  .ok (h, { w with offset := w.offset + UInt32.ofNat data.length })

/-- The writes of `to_snapshot`, one after the other (js_value_struct.rs:153-221). -/
def MemoryBlockWrite.writeAll (h : Heap) (w : MemoryBlockWrite) : List (List UInt8) → Res (Heap × MemoryBlockWrite)
  | [] => .ok (h, w)
  | data :: rest => do
      let (h, w) ← w.write h data
      writeAll h w rest

/-- memory_block.rs:42-48 -/
def MemoryBlock.fromSlice (h : Heap) (granted : Bool) (data : List UInt8) : Res (Heap × MemoryBlock) := do
  let (h, block) ← MemoryBlock.new h granted (UInt32.ofNat data.length)
  let (h, w) ← MemoryBlockWrite.write h ⟨block, 0⟩ data
  .ok (h, w.block)

/-- js_value_struct.rs:223-230 (`to_snapshot`) for a value whose announced size is `size` and whose parts are `pieces`. -/
def toSnapshot (h : Heap) (granted : Bool) (size : UInt32) (pieces : List (List UInt8)) : Res (Heap × MemoryBlock) := do
  let (h, block) ← MemoryBlock.new h granted size
  let (h, w) ← MemoryBlockWrite.writeAll h ⟨block, 0⟩ pieces
  .ok (h, w.block)

/-- `Vec<u8>`, its capacity is its length. -/
structure Bytes where
  ptr : Nat
  len : Nat

/-- memory_block.rs:75-82 (`convert_to_vec`) -/
def MemoryBlock.convertToVec (b : MemoryBlock) : Bytes := ⟨b.ptr, b.size.toNat⟩

/-- memory_block.rs:85-93 -/
def MemoryBlock.drop (strict : Bool) (h : Heap) (b : MemoryBlock) : Res Heap := h.dealloc strict b.ptr b.layout

/-- `Drop` of `Vec<u8>`: memory of `len` bytes with alignment 1. -/
def Bytes.drop (strict : Bool) (h : Heap) (v : Bytes) : Res Heap :=
  if v.len = 0 then .ok h else h.dealloc strict v.ptr ⟨v.len, 1⟩

/-- `vec[i]`, as `MemoryBlockRead` does (memory_block_read.rs:31-35): a panic behind the end, undefined if the byte is not initialised. -/
def Bytes.get (h : Heap) (v : Bytes) (i : Nat) : Res UInt8 :=
  if i < v.len then
    match h.find v.ptr with
    | some a =>
        match a.bytes[i]? with
        | some (some b) => .ok b
        | _ => .ub
    | none => .ub
  else .panic

/-- The variables of the program. -/
inductive Var where
  | block (b : MemoryBlock)
  | vec (v : Bytes)

/-- The uses of the safe functions; `k` is the name of a variable. -/
inductive Op where
  | new (k : Nat) (granted : Bool) (size : UInt32)
  | fromSlice (k : Nat) (granted : Bool) (data : List UInt8)
  | snapshot (k : Nat) (granted : Bool) (size : UInt32) (pieces : List (List UInt8))
  | write (k : Nat) (offset : UInt32) (data : List UInt8)
  | intoVec (k : Nat)
  | read (k i : Nat)
  | drop (k : Nat)

/-- The memory, the variables, and the bytes that were read. -/
structure State where
  heap : Heap
  vars : List (Nat × Var)
  seen : List UInt8

/-- A new variable. -/
def State.declare (s : State) (k : Nat) (r : Heap → Res (Heap × MemoryBlock)) : Res State :=
  match s.vars.lookup k with
  | some _ => .ok s
  | none => do
      let (h, b) ← r s.heap
      .ok { s with heap := h, vars := (k, .block b) :: s.vars }

/-- The variable is gone. -/
def State.without (s : State) (k : Nat) : List (Nat × Var) := s.vars.filter fun x => x.1 != k

/-- One use. -/
def State.step (strict : Bool) (s : State) : Op → Res State
  | .new k granted size => s.declare k fun h => MemoryBlock.new h granted size
  | .fromSlice k granted data => s.declare k fun h => MemoryBlock.fromSlice h granted data
  | .snapshot k granted size pieces => s.declare k fun h => toSnapshot h granted size pieces
  | .write k offset data =>
      match s.vars.lookup k with
      | some (.block b) => do
          let h ← b.write s.heap offset data
          .ok { s with heap := h }
      | _ => .ok s
  | .intoVec k =>
      match s.vars.lookup k with
      | some (.block b) => .ok { s with vars := (k, .vec b.convertToVec) :: s.without k }
      | _ => .ok s
  | .read k i =>
      match s.vars.lookup k with
      | some (.vec v) => do
          let b ← v.get s.heap i
          .ok { s with seen := s.seen ++ [b] }
      | _ => .ok s
  | .drop k =>
      match s.vars.lookup k with
      | some (.block b) => do
          let h ← b.drop strict s.heap
          .ok { s with heap := h, vars := s.without k }
      | some (.vec v) => do
          let h ← v.drop strict s.heap
          .ok { s with heap := h, vars := s.without k }
      | none => .ok s

/-- A program. -/
def State.run (strict : Bool) (s : State) : List Op → Res State
  | [] => .ok s
  | op :: ops => do
      let s ← s.step strict op
      s.run strict ops

/-- No memory, no variables. -/
def State.empty : State := ⟨⟨[], 0⟩, [], []⟩

/-! ## Specification -/

/-- Each variable has bytes of its own; `none` is a byte that has not been written. -/
inductive Thing where
  | block (bytes : List (Option UInt8))
  | vec (bytes : List (Option UInt8))

/-- What the program sees: its variables, and the bytes it has read. -/
structure View where
  things : List (Nat × Thing)
  seen : List UInt8

/-- The first `n` bytes from `i` on are replaced. -/
def put (bytes : List (Option UInt8)) (i : Nat) (data : List UInt8) : List (Option UInt8) :=
  bytes.take i ++ data.map some ++ bytes.drop (i + data.length)

/-- What one use should do: the memory behind a variable changes by writes to this variable only. `none`: a panic. -/
inductive Does (v : View) : Op → Option View → Prop
  | inUse {k : Nat} {t : Thing} {op : Op} {g : Bool} {n : UInt32} {data : List UInt8} {pieces : List (List UInt8)} :
      (k, t) ∈ v.things → op ∈ [.new k g n, .fromSlice k g data, .snapshot k g n pieces] → Does v op (some v)
  | new {k : Nat} {n : UInt32} :
      (∀ t, (k, t) ∉ v.things) → 0 < n.toNat → n.toNat ≤ 2147483644 →
      Does v (.new k true n) (some { v with things := (k, .block (List.replicate n.toNat none)) :: v.things })
  | newFails {k : Nat} {g : Bool} {n : UInt32} :
      (∀ t, (k, t) ∉ v.things) → (n = 0 ∨ 2147483644 < n.toNat ∨ g = false) → Does v (.new k g n) none
  | fromSlice {k : Nat} {data : List UInt8} :
      (∀ t, (k, t) ∉ v.things) → data ≠ [] → data.length ≤ 2147483644 →
      Does v (.fromSlice k true data) (some { v with things := (k, .block (data.map some)) :: v.things })
  | fromSliceFails {k : Nat} {data : List UInt8} {g : Bool} :
      (∀ t, (k, t) ∉ v.things) → data.length < 2 ^ 31 → (data = [] ∨ 2147483644 < data.length ∨ g = false) →
      Does v (.fromSlice k g data) none
  | snapshot {k : Nat} {pieces : List (List UInt8)} {n : UInt32} :
      (∀ t, (k, t) ∉ v.things) → (∀ p ∈ pieces, p.length < 2 ^ 31) → 0 < n.toNat → n.toNat ≤ 2147483644 → pieces.flatten.length ≤ n.toNat →
      Does v (.snapshot k true n pieces) (some { v with things := (k, .block (put (List.replicate n.toNat none) 0 pieces.flatten)) :: v.things })
  | snapshotFails {k : Nat} {pieces : List (List UInt8)} {n : UInt32} {g : Bool} :
      (∀ t, (k, t) ∉ v.things) → (∀ p ∈ pieces, p.length < 2 ^ 31) →
      (n = 0 ∨ 2147483644 < n.toNat ∨ g = false ∨ n.toNat < pieces.flatten.length) → Does v (.snapshot k g n pieces) none
  | write {k : Nat} {bytes : List (Option UInt8)} {offset : UInt32} {data : List UInt8} {v' : View} :
      (k, .block bytes) ∈ v.things → offset.toNat + data.length < 2 ^ 32 → offset.toNat + data.length ≤ bytes.length →
      v' = { v with things := v.things.map fun x => if x.1 = k then (k, .block (put bytes offset.toNat data)) else x } →
      Does v (.write k offset data) (some v')
  | writeFails {k : Nat} {bytes : List (Option UInt8)} {offset : UInt32} {data : List UInt8} :
      (k, .block bytes) ∈ v.things → offset.toNat + data.length < 2 ^ 32 → bytes.length < offset.toNat + data.length →
      Does v (.write k offset data) none
  | writeNothing {k : Nat} {offset : UInt32} {data : List UInt8} :
      (∀ bytes, (k, .block bytes) ∉ v.things) → Does v (.write k offset data) (some v)
  | intoVec {k : Nat} {bytes : List (Option UInt8)} :
      (k, .block bytes) ∈ v.things →
      Does v (.intoVec k) (some { v with things := (k, .vec bytes) :: v.things.filter fun x => x.1 != k })
  | intoVecNothing {k : Nat} :
      (∀ bytes, (k, .block bytes) ∉ v.things) → Does v (.intoVec k) (some v)
  | read {k : Nat} {bytes : List (Option UInt8)} {i : Nat} {b : UInt8} :
      (k, .vec bytes) ∈ v.things → bytes[i]? = some (some b) → Does v (.read k i) (some { v with seen := v.seen ++ [b] })
  | readFails {k : Nat} {bytes : List (Option UInt8)} {i : Nat} :
      (k, .vec bytes) ∈ v.things → bytes.length ≤ i → Does v (.read k i) none
  | readNothing {k : Nat} {i : Nat} :
      (∀ bytes, (k, .vec bytes) ∉ v.things) → Does v (.read k i) (some v)
  | drop {k : Nat} :
      Does v (.drop k) (some { v with things := v.things.filter fun x => x.1 != k })

/-- What a program should do. -/
inductive Runs : View → List Op → Option View → Prop
  | nil : Runs v [] (some v)
  | cons : Does v op (some v') → Runs v' ops r → Runs v (op :: ops) r
  | panic : Does v op none → Runs v (op :: ops) none

/-- The start of a program. -/
def View.empty : View := ⟨[], []⟩

/-! ## Proofs -/

def Var.ptr : Var → Nat
  | .block b => b.ptr
  | .vec v => v.ptr

def Var.size : Var → Nat
  | .block b => b.size.toNat
  | .vec v => v.len

def bytesAt (h : Heap) (ptr : Nat) : List (Option UInt8) := (h.find ptr).elim [] Alloc.bytes

def Var.thing (h : Heap) : Var → Thing
  | .block b => .block (bytesAt h b.ptr)
  | .vec v => .vec (bytesAt h v.ptr)

def State.view (s : State) : View := ⟨s.vars.map fun x => (x.1, x.2.thing s.heap), s.seen⟩

/-- The memory of one variable. -/
structure Good (h : Heap) (x : Var) : Prop where
  found : ∃ a, h.find x.ptr = some a ∧ a.layout = ⟨x.size, 4⟩ ∧ a.bytes.length = x.size
  pos : 0 < x.size
  small : x.size ≤ 2147483644
  layout : ∀ b, x = .block b → b.layout = ⟨b.size.toNat, 4⟩

structure Wf (strict : Bool) (s : State) : Prop where
  good : ∀ x ∈ s.vars, Good s.heap x.2
  keys : (s.vars.map (·.1)).Nodup
  ptrs : (s.vars.map (·.2.ptr)).Nodup
  fresh : ∀ a ∈ s.heap.live, a.id < s.heap.next
  owned : ∀ a ∈ s.heap.live, a.id ∈ s.vars.map (·.2.ptr)
  blocks : strict = true → ∀ k v, (k, Var.vec v) ∉ s.vars

theorem lookup_some {l : List (Nat × β)} : ∀ {k : Nat} {x : β}, l.lookup k = some x → (k, x) ∈ l := by
  intro k x h
  induction l with
  | nil => simp at h
  | cons y l ih =>
    obtain ⟨k', x'⟩ := y
    rw [List.lookup_cons] at h
    split at h
    · rename_i e
      simp only [beq_iff_eq] at e
      cases h
      simp [e]
    · exact List.mem_cons_of_mem _ (ih h)

theorem lookup_none {l : List (Nat × β)} {k : Nat} (h : l.lookup k = none) : ∀ x, (k, x) ∉ l := by
  induction l with
  | nil => simp
  | cons y l ih =>
    obtain ⟨k', x'⟩ := y
    rw [List.lookup_cons] at h
    split at h
    · simp at h
    · rename_i e
      intro x hm
      simp only [List.mem_cons, Prod.mk.injEq] at hm
      rcases hm with ⟨rfl, -⟩ | hm
      · simp at e
      · exact ih h x hm

theorem lookup_mem {l : List (Nat × β)} (hn : (l.map (·.1)).Nodup) {k : Nat} {x : β} (h : (k, x) ∈ l) : l.lookup k = some x := by
  induction l with
  | nil => simp at h
  | cons y l ih =>
    obtain ⟨k', x'⟩ := y
    simp only [List.map_cons, List.nodup_cons] at hn
    simp only [List.mem_cons, Prod.mk.injEq] at h
    rw [List.lookup_cons]
    rcases h with ⟨rfl, rfl⟩ | h
    · simp
    · have : k ≠ k' := fun e => hn.1 (e ▸ List.mem_map.mpr ⟨_, h, rfl⟩)
      rw [show (k == k') = false by simpa using this]
      exact ih hn.2 h

theorem find_mem {h : Heap} {ptr : Nat} {a : Alloc} (e : h.find ptr = some a) : a ∈ h.live ∧ a.id = ptr :=
  ⟨List.mem_of_find?_eq_some e, by simpa using List.find?_some e⟩

/-- Another allocation is added. -/
theorem find_alloc (h : Heap) (l : Layout) {ptr : Nat} (hp : ptr ≠ h.next) : (h.alloc l).1.find ptr = h.find ptr := by
  simp only [Heap.find, Heap.alloc, List.find?_cons]
  rw [show (h.next == ptr) = false by simpa using Ne.symm hp]

theorem find_new (h : Heap) (l : Layout) : (h.alloc l).1.find h.next = some ⟨h.next, l, List.replicate l.size none⟩ := by
  simp [Heap.find, Heap.alloc]

theorem find_filter (l : List Alloc) {p q : Nat} (hp : p ≠ q) : (l.filter fun a => a.id != q).find? (fun a => a.id == p) = l.find? fun a => a.id == p := by
  induction l with
  | nil => rfl
  | cons a l ih =>
    rw [List.filter_cons]
    by_cases ha : a.id = q
    · have h1 : (a.id != q) = false := by simp [ha]
      have h2 : (a.id == p) = false := by rw [ha]; simpa using Ne.symm hp
      simp only [h1, Bool.false_eq_true, if_false, List.find?_cons, h2]
      exact ih
    · have h1 : (a.id != q) = true := by simp [ha]
      simp only [h1, if_true, List.find?_cons]
      rw [ih]

/-- The bytes of an allocation are changed. -/
def Heap.change (h : Heap) (ptr : Nat) (f : List (Option UInt8) → List (Option UInt8)) : Heap :=
  { h with live := h.live.map fun a => if a.id = ptr then { a with bytes := f a.bytes } else a }

theorem find_change (h : Heap) (ptr : Nat) (f : List (Option UInt8) → List (Option UInt8)) (p : Nat) :
    (h.change ptr f).find p = (h.find p).map fun a => if p = ptr then { a with bytes := f a.bytes } else a := by
  simp only [Heap.find, Heap.change]
  induction h.live with
  | nil => rfl
  | cons a l ih =>
    simp only [List.map_cons, List.find?_cons]
    have e : (if a.id = ptr then ({ a with bytes := f a.bytes } : Alloc) else a).id = a.id := by split <;> rfl
    rw [e]
    by_cases hp : a.id = p
    · simp only [hp, beq_self_eq_true, Option.map_some]
    · rw [show (a.id == p) = false by simpa using hp]
      exact ih

theorem change_bytes (h : Heap) (ptr : Nat) (f : List (Option UInt8) → List (Option UInt8)) (p : Nat) (hf : (h.find ptr).isSome) :
    bytesAt (h.change ptr f) p = if p = ptr then f (bytesAt h p) else bytesAt h p := by
  simp only [bytesAt, find_change]
  by_cases hp : p = ptr
  · subst hp
    obtain ⟨a, e⟩ := Option.isSome_iff_exists.mp hf
    simp [e]
  · simp only [if_neg hp]
    cases h.find p <;> simp

theorem put_length {bytes : List (Option UInt8)} {i : Nat} {data : List UInt8} (h : i + data.length ≤ bytes.length) : (put bytes i data).length = bytes.length := by
  simp [put]
  omega

theorem put_put (bytes : List (Option UInt8)) (i : Nat) (d r : List UInt8) : put (put bytes i d) (i + d.length) r = put bytes i (d ++ r) := by
  simp only [put, List.map_append, List.length_append]
  by_cases hi : i ≤ bytes.length
  · have hl : (bytes.take i ++ d.map some).length = i + d.length := by simp [Nat.min_eq_left hi]
    rw [List.take_append_of_le_length (by omega), List.take_of_length_le (by omega), List.drop_append, hl, List.drop_of_length_le (by omega), List.drop_drop]
    simp only [List.nil_append, List.append_assoc]
    congr 4
    omega
  · have hl : (bytes.take i ++ d.map some ++ bytes.drop (i + d.length)).length ≤ i + d.length := by simp; omega
    have hl2 : (bytes.take i ++ d.map some ++ bytes.drop (i + d.length)).length ≤ i + d.length + r.length := by omega
    rw [List.take_of_length_le hl, List.drop_of_length_le hl2, List.drop_of_length_le (l := bytes) (i := i + d.length) (by omega),
      List.drop_of_length_le (l := bytes) (i := i + (d.length + r.length)) (by omega)]
    simp

/-- A write inside of the block. -/
theorem write_ok {h : Heap} {b : MemoryBlock} (g : Good h (.block b)) {offset : UInt32} {data : List UInt8}
    (h1 : offset.toNat + data.length < 2 ^ 32) :
    b.write h offset data = if offset.toNat + data.length ≤ b.size.toNat then .ok (h.change b.ptr (put · offset.toNat data)) else .panic := by
  obtain ⟨a, e, hl, hb⟩ := g.found
  have hs := g.small
  simp only [Var.ptr, Var.size] at e hl hb hs
  have hd : (UInt32.ofNat data.length).toNat = data.length := by rw [UInt32.toNat_ofNat']; omega
  have ha : (offset + UInt32.ofNat data.length).toNat = offset.toNat + data.length := by
    rw [UInt32.toNat_add, hd]; omega
  unfold MemoryBlock.write
  simp only [UInt32.le_iff_toNat_le, ha]
  split
  · rename_i hle
    have hi : asIsize offset = offset.toNat := by unfold asIsize; rw [if_pos (by omega)]
    simp only [Heap.copy, e, hi, hl]
    rw [if_pos (by omega)]
    rfl
  · rfl

theorem good_change {h : Heap} {x : Var} (g : Good h x) {ptr : Nat} {f : List (Option UInt8) → List (Option UInt8)}
    (hf : ptr = x.ptr → (f (bytesAt h ptr)).length = (bytesAt h ptr).length) : Good (h.change ptr f) x := by
  obtain ⟨⟨a, e, hl, hb⟩, h1, h2, h3⟩ := g
  refine ⟨?_, h1, h2, h3⟩
  rw [find_change, e]
  by_cases hp : x.ptr = ptr
  · refine ⟨{ a with bytes := f a.bytes }, by simp [hp], hl, ?_⟩
    have := hf hp.symm
    simp only [bytesAt, ← hp, e, Option.elim] at this
    simp only [this, hb]
  · exact ⟨a, by simp [hp], hl, hb⟩

theorem good_bytes {h : Heap} {x : Var} (g : Good h x) : (bytesAt h x.ptr).length = x.size := by
  obtain ⟨a, e, -, hb⟩ := g.found
  simp [bytesAt, e, hb]

/-- Writes, one after the other. -/
theorem writeAll_ok : ∀ {pieces : List (List UInt8)} {h : Heap} {b : MemoryBlock} (_ : Good h (.block b)) {offset : UInt32}
    (_ : ∀ p ∈ pieces, p.length < 2 ^ 31) (_ : offset.toNat ≤ b.size.toNat),
    if offset.toNat + pieces.flatten.length ≤ b.size.toNat then
      ∃ o, MemoryBlockWrite.writeAll h ⟨b, offset⟩ pieces = .ok (h.change b.ptr (put · offset.toNat pieces.flatten), ⟨b, o⟩)
    else MemoryBlockWrite.writeAll h ⟨b, offset⟩ pieces = .panic := by
  intro pieces
  induction pieces with
  | nil =>
    intro h b g offset _ ho
    rw [if_pos (by simpa using ho)]
    refine ⟨offset, ?_⟩
    have : h.change b.ptr (put · offset.toNat []) = h := by
      simp [Heap.change, put]
    simp [MemoryBlockWrite.writeAll, this]
  | cons d rest ih =>
    intro h b g offset hp ho
    have hd := hp d (by simp)
    have hs := g.small
    simp only [Var.size] at hs
    have hw := write_ok g (offset := offset) (data := d) (by omega)
    simp only [MemoryBlockWrite.writeAll, MemoryBlockWrite.write, bind, hw, List.flatten_cons, List.length_append]
    by_cases hle : offset.toNat + d.length ≤ b.size.toNat
    · simp only [if_pos hle]
      have hg : Good (h.change b.ptr (put · offset.toNat d)) (.block b) := by
        apply good_change g
        intro _
        exact put_length (by have := good_bytes g; simp only [Var.ptr, Var.size] at this; omega)
      have hd' : (UInt32.ofNat d.length).toNat = d.length := by rw [UInt32.toNat_ofNat']; omega
      have ha : (offset + UInt32.ofNat d.length).toNat = offset.toNat + d.length := by
        rw [UInt32.toNat_add, hd']; omega
      have := ih hg (offset := offset + UInt32.ofNat d.length) (fun p hp' => hp p (by simp [hp'])) (by rw [ha]; exact hle)
      rw [ha] at this
      rw [Nat.add_assoc] at this
      split at this
      · rename_i hle2
        rw [if_pos hle2]
        obtain ⟨o, e⟩ := this
        refine ⟨o, ?_⟩
        rw [e]
        have hc : (h.change b.ptr (put · offset.toNat d)).change b.ptr (put · (offset.toNat + d.length) rest.flatten) =
            h.change b.ptr (put · offset.toNat (d ++ rest.flatten)) := by
          simp only [Heap.change, List.map_map, Heap.mk.injEq, and_true]
          apply List.map_congr_left
          intro a ha
          simp only [Function.comp]
          by_cases hp : a.id = b.ptr
          · simp only [hp, if_true, Alloc.mk.injEq, true_and]
            exact put_put ..
          · simp only [hp, if_false]
        rw [hc]
      · rename_i hle2
        rw [if_neg hle2]
        exact this
    · rw [if_neg hle, if_neg (by omega)]

/-! ### New blocks -/

/-- The memory of a new block is new. -/
theorem new_ok (h : Heap) (g : Bool) (n : UInt32) :
    (MemoryBlock.new h g n = if 0 < n.toNat ∧ n.toNat ≤ 2147483644 ∧ g = true then
      .ok ((h.alloc ⟨n.toNat, 4⟩).1, ⟨h.next, ⟨n.toNat, 4⟩, n⟩) else .panic) := by
  simp only [MemoryBlock.new, allocMemory, Layout.fromSizeAlign, bind]
  by_cases h1 : n.toNat ≤ 2147483644
  · rw [if_pos (by omega)]
    simp only [Heap.alloc]
    by_cases h2 : 0 < n.toNat
    · cases g <;> simp [h1, h2]
    · simp [h2]
  · rw [if_neg (by omega)]
    simp [h1]

theorem new_good (h : Heap) {n : UInt32} (h1 : 0 < n.toNat) (h2 : n.toNat ≤ 2147483644) :
    Good (h.alloc ⟨n.toNat, 4⟩).1 (.block ⟨h.next, ⟨n.toNat, 4⟩, n⟩) := by
  refine ⟨⟨_, find_new h _, rfl, ?_⟩, h1, h2, ?_⟩
  · simp [Var.size]
  · intro b e; cases e; rfl

theorem fromSlice_eq (h : Heap) (g : Bool) (data : List UInt8) : MemoryBlock.fromSlice h g data = toSnapshot h g (UInt32.ofNat data.length) [data] := by
  simp only [MemoryBlock.fromSlice, toSnapshot, bind, MemoryBlockWrite.writeAll]
  cases MemoryBlock.new h g (UInt32.ofNat data.length) with
  | ok a =>
    dsimp only
    cases MemoryBlockWrite.write a.1 ⟨a.2, 0⟩ data <;> rfl
  | panic => rfl
  | ub => rfl

theorem snapshot_ok (h : Heap) (g : Bool) (n : UInt32) {pieces : List (List UInt8)} (hp : ∀ p ∈ pieces, p.length < 2 ^ 31) :
    toSnapshot h g n pieces = if 0 < n.toNat ∧ n.toNat ≤ 2147483644 ∧ g = true ∧ pieces.flatten.length ≤ n.toNat then
      .ok ((h.alloc ⟨n.toNat, 4⟩).1.change h.next (put · 0 pieces.flatten), ⟨h.next, ⟨n.toNat, 4⟩, n⟩) else .panic := by
  simp only [toSnapshot, bind, new_ok]
  by_cases hc : 0 < n.toNat ∧ n.toNat ≤ 2147483644 ∧ g = true
  · simp only [if_pos hc]
    have := writeAll_ok (new_good h hc.1 hc.2.1) (offset := 0) hp (by simp)
    simp only [UInt32.toNat_zero, Nat.zero_add] at this
    split at this
    · rename_i hle
      obtain ⟨o, e⟩ := this
      rw [e, if_pos ⟨hc.1, hc.2.1, hc.2.2, hle⟩]
    · rename_i hle
      rw [this, if_neg (fun hh => hle hh.2.2.2)]
  · simp only [if_neg hc]
    rw [if_neg (fun hh => hc ⟨hh.1, hh.2.1, hh.2.2.1⟩)]

/-! ### The invariant -/

theorem inj_of_nodup {l : List α} {f : α → β} (h : (l.map f).Nodup) {x y : α} (hx : x ∈ l) (hy : y ∈ l) (e : f x = f y) : x = y := by
  induction l with
  | nil => simp at hx
  | cons z l ih =>
    simp only [List.map_cons, List.nodup_cons, List.mem_map, not_exists, not_and] at h
    simp only [List.mem_cons] at hx hy
    rcases hx with rfl | hx <;> rcases hy with rfl | hy
    · rfl
    · exact absurd e.symm (h.1 y hy)
    · exact absurd e (h.1 x hx)
    · exact ih h.2 hx hy

/-- The variables that stay see the same memory. -/
theorem thing_congr {h h' : Heap} {x : Var} (e : bytesAt h' x.ptr = bytesAt h x.ptr) : x.thing h' = x.thing h := by
  cases x <;> simpa [Var.thing, Var.ptr] using e

theorem good_congr {h h' : Heap} {x : Var} (g : Good h x) (e : h'.find x.ptr = h.find x.ptr) : Good h' x := by
  obtain ⟨h1, h2, h3, h4⟩ := g
  exact ⟨by rw [e]; exact h1, h2, h3, h4⟩

theorem Wf.lt {strict : Bool} {s : State} (w : Wf strict s) {x : Nat × Var} (hx : x ∈ s.vars) : x.2.ptr < s.heap.next := by
  obtain ⟨a, e, -⟩ := (w.good x hx).found
  obtain ⟨hm, hi⟩ := find_mem e
  rw [← hi]
  exact w.fresh a hm

/-- A new variable with new memory. -/
theorem wf_declare {strict : Bool} {s : State} (w : Wf strict s) {k : Nat} (hk : ∀ x, (k, x) ∉ s.vars) {n : UInt32} (h1 : 0 < n.toNat) (h2 : n.toNat ≤ 2147483644)
    {f : List (Option UInt8) → List (Option UInt8)} (hf : (f (List.replicate n.toNat none)).length = n.toNat) :
    Wf strict { s with heap := (s.heap.alloc ⟨n.toNat, 4⟩).1.change s.heap.next f, vars := (k, .block ⟨s.heap.next, ⟨n.toNat, 4⟩, n⟩) :: s.vars } ∧
    ({ s with heap := (s.heap.alloc ⟨n.toNat, 4⟩).1.change s.heap.next f, vars := (k, .block ⟨s.heap.next, ⟨n.toNat, 4⟩, n⟩) :: s.vars } : State).view =
      { s.view with things := (k, .block (f (List.replicate n.toNat none))) :: s.view.things } := by
  have hb : bytesAt (s.heap.alloc ⟨n.toNat, 4⟩).1 s.heap.next = List.replicate n.toNat none := by simp [bytesAt, find_new]
  have hne : ∀ x ∈ s.vars, x.2.ptr ≠ s.heap.next := fun x hx => Nat.ne_of_lt (w.lt hx)
  constructor
  · refine ⟨?_, ?_, ?_, ?_, ?_, ?_⟩
    · intro x hx
      simp only [List.mem_cons] at hx
      rcases hx with rfl | hx
      · apply good_change (new_good s.heap h1 h2)
        intro _
        rw [hb, hf]; simp
      · apply good_change
        · exact good_congr (w.good x hx) (find_alloc _ _ (hne x hx))
        · intro e; exact absurd e.symm (hne x hx)
    · simp only [List.map_cons, List.nodup_cons]
      refine ⟨?_, w.keys⟩
      intro hm
      obtain ⟨⟨k', x⟩, hx, e⟩ := List.mem_map.mp hm
      exact hk x (by rw [← e]; exact hx)
    · simp only [List.map_cons, List.nodup_cons]
      refine ⟨?_, w.ptrs⟩
      intro hm
      obtain ⟨x, hx, e⟩ := List.mem_map.mp hm
      exact hne x hx e
    · intro a ha
      simp only [Heap.change, Heap.alloc, List.mem_map, List.mem_cons] at ha ⊢
      obtain ⟨a', ha', rfl⟩ := ha
      have : (if a'.id = s.heap.next then ({ a' with bytes := f a'.bytes } : Alloc) else a').id = a'.id := by split <;> rfl
      rw [this]
      rcases ha' with rfl | ha'
      · exact Nat.lt_succ_self _
      · exact Nat.lt_succ_of_lt (w.fresh a' ha')
    · intro a ha
      simp only [Heap.change, Heap.alloc, List.mem_map, List.mem_cons] at ha
      obtain ⟨a', ha', rfl⟩ := ha
      have : (if a'.id = s.heap.next then ({ a' with bytes := f a'.bytes } : Alloc) else a').id = a'.id := by split <;> rfl
      rw [this]
      simp only [List.map_cons, List.mem_cons]
      rcases ha' with rfl | ha'
      · exact .inl rfl
      · exact .inr (w.owned a' ha')
    · intro hs k' v hm
      simp only [List.mem_cons, Prod.mk.injEq] at hm
      rcases hm with ⟨-, e⟩ | hm
      · cases e
      · exact w.blocks hs k' v hm
  · simp only [State.view, View.mk.injEq, and_true, List.map_cons, Var.thing, List.cons.injEq, Prod.mk.injEq, true_and, Thing.block.injEq]
    constructor
    · rw [change_bytes _ _ _ _ (by rw [find_new]; rfl), if_pos rfl, hb]
    · apply List.map_congr_left
      intro x hx
      simp only [Prod.mk.injEq, true_and]
      apply thing_congr
      rw [change_bytes _ _ _ _ (by rw [find_new]; rfl), if_neg (hne x hx)]
      simp only [bytesAt, find_alloc _ _ (hne x hx)]

theorem mem_view {s : State} {k : Nat} {t : Thing} : (k, t) ∈ s.view.things ↔ ∃ x, (k, x) ∈ s.vars ∧ x.thing s.heap = t := by
  simp only [State.view, List.mem_map, Prod.mk.injEq]
  constructor
  · rintro ⟨⟨k', x⟩, hx, rfl, rfl⟩; exact ⟨x, hx, rfl⟩
  · rintro ⟨x, hx, rfl⟩; exact ⟨(k, x), hx, rfl, rfl⟩

/-- The block of a variable. -/
theorem lookup_block {strict : Bool} {s : State} (w : Wf strict s) {k : Nat} {bytes : List (Option UInt8)} (h : (k, .block bytes) ∈ s.view.things) :
    ∃ b, s.vars.lookup k = some (.block b) ∧ (k, .block b) ∈ s.vars ∧ Good s.heap (.block b) ∧ bytes = bytesAt s.heap b.ptr ∧ bytes.length = b.size.toNat := by
  obtain ⟨x, hx, e⟩ := mem_view.mp h
  cases x with
  | block b =>
    simp only [Var.thing, Thing.block.injEq] at e
    have g := w.good _ hx
    exact ⟨b, lookup_mem w.keys hx, hx, g, e.symm, by rw [← e]; exact good_bytes g⟩
  | vec v => simp [Var.thing] at e

theorem lookup_vec {strict : Bool} {s : State} (w : Wf strict s) {k : Nat} {bytes : List (Option UInt8)} (h : (k, .vec bytes) ∈ s.view.things) :
    ∃ b, s.vars.lookup k = some (.vec b) ∧ Good s.heap (.vec b) ∧ bytes = bytesAt s.heap b.ptr ∧ bytes.length = b.len := by
  obtain ⟨x, hx, e⟩ := mem_view.mp h
  cases x with
  | vec b =>
    simp only [Var.thing, Thing.vec.injEq] at e
    have g := w.good _ hx
    exact ⟨b, lookup_mem w.keys hx, g, e.symm, by rw [← e]; exact good_bytes g⟩
  | block v => simp [Var.thing] at e

theorem view_none {s : State} {k : Nat} (h : ∀ t, (k, t) ∉ s.view.things) : (∀ x, (k, x) ∉ s.vars) ∧ s.vars.lookup k = none := by
  have h1 : ∀ x, (k, x) ∉ s.vars := fun x hx => h _ (mem_view.mpr ⟨x, hx, rfl⟩)
  refine ⟨h1, ?_⟩
  cases e : s.vars.lookup k with
  | none => rfl
  | some x => exact absurd (lookup_some e) (h1 x)

theorem declare_used {s : State} {k : Nat} {t : Thing} (h : (k, t) ∈ s.view.things) {strict : Bool} (w : Wf strict s) (r : Heap → Res (Heap × MemoryBlock)) :
    s.declare k r = .ok s := by
  obtain ⟨x, hx, -⟩ := mem_view.mp h
  simp only [State.declare, lookup_mem w.keys hx]

/-- Writes to the block of a variable. -/
theorem wf_write {strict : Bool} {s : State} (w : Wf strict s) {k : Nat} {b : MemoryBlock} (hb : (k, .block b) ∈ s.vars) {f : List (Option UInt8) → List (Option UInt8)}
    (hf : (f (bytesAt s.heap b.ptr)).length = b.size.toNat) :
    Wf strict { s with heap := s.heap.change b.ptr f } ∧
    ({ s with heap := s.heap.change b.ptr f } : State).view =
      { s.view with things := s.view.things.map fun x => if x.1 = k then (k, .block (f (bytesAt s.heap b.ptr))) else x } := by
  have g := w.good _ hb
  have hid : ∀ a : Alloc, (if a.id = b.ptr then ({ a with bytes := f a.bytes } : Alloc) else a).id = a.id := by intro a; split <;> rfl
  have hsome : (s.heap.find b.ptr).isSome := by
    obtain ⟨a, e, -⟩ := g.found
    simp only [Var.ptr] at e
    rw [e]; rfl
  have same : ∀ x ∈ s.vars, x.2.ptr = b.ptr → x = (k, .block b) := by
    intro x hx e
    exact inj_of_nodup w.ptrs hx hb e
  constructor
  · refine ⟨?_, w.keys, w.ptrs, ?_, ?_, w.blocks⟩
    · intro x hx
      apply good_change (w.good x hx)
      intro _
      rw [hf]
      exact (good_bytes g).symm
    · intro a ha
      simp only [Heap.change, List.mem_map] at ha ⊢
      obtain ⟨a', ha', rfl⟩ := ha
      rw [hid]
      exact w.fresh a' ha'
    · intro a ha
      simp only [Heap.change, List.mem_map] at ha
      obtain ⟨a', ha', rfl⟩ := ha
      rw [hid]
      exact w.owned a' ha'
  · simp only [State.view, View.mk.injEq, and_true, List.map_map]
    apply List.map_congr_left
    intro x hx
    simp only [Function.comp]
    by_cases hxk : x.1 = k
    · have : x = (k, .block b) := by
        have h1 := lookup_mem w.keys (show (k, x.2) ∈ s.vars by rw [← hxk]; exact hx)
        have h2 := lookup_mem w.keys hb
        rw [h1] at h2
        cases h2' : x
        rw [h2'] at hxk h2
        simp only at hxk h2
        cases h2
        rw [hxk]
      subst this
      simp only [if_true, Var.thing, Prod.mk.injEq, true_and, Thing.block.injEq]
      rw [change_bytes _ _ _ _ hsome, if_pos rfl]
    · rw [if_neg hxk]
      simp only [Prod.mk.injEq, true_and]
      apply thing_congr
      rw [change_bytes _ _ _ _ hsome, if_neg]
      intro e
      have := same x hx e
      rw [this] at hxk
      exact hxk rfl

theorem filter_same {s : State} {strict : Bool} (w : Wf strict s) {k : Nat} {x : Var} (hx : (k, x) ∈ s.vars) :
    ∀ y ∈ s.without k, y ∈ s.vars ∧ y.2.ptr ≠ x.ptr := by
  intro y hy
  simp only [State.without, List.mem_filter, bne_iff_ne, ne_eq] at hy
  refine ⟨hy.1, fun e => hy.2 ?_⟩
  rw [inj_of_nodup w.ptrs hy.1 hx e]

/-- A variable is dropped. -/
theorem wf_drop {strict : Bool} {s : State} (w : Wf strict s) {k : Nat} {x : Var} (hx : (k, x) ∈ s.vars) :
    Wf strict { s with heap := { s.heap with live := s.heap.live.filter fun a => a.id != x.ptr }, vars := s.without k } ∧
    ({ s with heap := { s.heap with live := s.heap.live.filter fun a => a.id != x.ptr }, vars := s.without k } : State).view =
      { s.view with things := s.view.things.filter fun x => x.1 != k } := by
  have hs := filter_same w hx
  have hfind : ∀ y ∈ s.without k, (⟨s.heap.live.filter fun a => a.id != x.ptr, s.heap.next⟩ : Heap).find y.2.ptr = s.heap.find y.2.ptr :=
    fun y hy => find_filter _ (hs y hy).2
  constructor
  · refine ⟨?_, ?_, ?_, ?_, ?_, ?_⟩
    · intro y hy
      exact good_congr (w.good y (hs y hy).1) (hfind y hy)
    · exact List.Nodup.sublist (List.Sublist.map _ List.filter_sublist) w.keys
    · exact List.Nodup.sublist (List.Sublist.map _ List.filter_sublist) w.ptrs
    · intro a ha
      exact w.fresh a (List.mem_filter.mp ha |>.1)
    · intro a ha
      simp only [List.mem_filter, bne_iff_ne, ne_eq] at ha
      obtain ⟨y, hy, e⟩ := List.mem_map.mp (w.owned a ha.1)
      refine List.mem_map.mpr ⟨y, ?_, e⟩
      simp only [State.without, List.mem_filter, bne_iff_ne, ne_eq]
      refine ⟨hy, fun ek => ha.2 ?_⟩
      have h1 := lookup_mem w.keys (show (k, y.2) ∈ s.vars by rw [← ek]; exact hy)
      rw [lookup_mem w.keys hx] at h1
      cases h1
      exact e.symm
    · intro h k' v hm
      exact w.blocks h k' v (List.mem_filter.mp hm |>.1)
  · simp only [State.view, View.mk.injEq, and_true, State.without, List.filter_map]
    apply List.map_congr_left
    intro y hy
    simp only [Prod.mk.injEq, true_and]
    apply thing_congr
    simp only [bytesAt]
    rw [hfind y hy]

theorem dealloc_ok {strict : Bool} {s : State} (w : Wf strict s) {k : Nat} {x : Var} (hx : (k, x) ∈ s.vars) {align : Nat} (ha : strict = true → align = 4) :
    s.heap.dealloc strict x.ptr ⟨x.size, align⟩ = .ok { s.heap with live := s.heap.live.filter fun a => a.id != x.ptr } := by
  obtain ⟨a, e, hl, -⟩ := (w.good _ hx).found
  simp only at e hl
  simp only [Heap.dealloc, e, hl]
  rw [if_pos ⟨trivial, fun h => (ha h).symm⟩]

theorem step_ok {strict : Bool} {s : State} (w : Wf strict s) {op : Op} (hop : strict = true → ∀ k, op ≠ .intoVec k) :
    ∀ {r}, Does s.view op r → match r with
      | some v => ∃ s', s.step strict op = .ok s' ∧ Wf strict s' ∧ s'.view = v
      | none => s.step strict op = .panic := by
  intro r h
  generalize hv : s.view = v at h
  cases h with
  | @inUse k t op g n data pieces hm hop' =>
    subst hv
    refine ⟨s, ?_, w, rfl⟩
    simp only [List.mem_cons, List.not_mem_nil, or_false] at hop'
    rcases hop' with rfl | rfl | rfl <;> (simp only [State.step]; exact declare_used hm w _)
  | @new k n hk h1 h2 =>
    subst hv
    obtain ⟨hk1, hk2⟩ := view_none hk
    have := wf_declare w hk1 h1 h2 (f := id) (by simp)
    have hc : ∀ h : Heap, ∀ p, h.change p id = h := by intro h p; simp [Heap.change]
    rw [hc] at this
    refine ⟨_, ?_, this⟩
    simp only [State.step, State.declare, hk2, bind, new_ok, h1, h2, and_self, if_true]
  | @newFails k g n hk hf =>
    subst hv
    obtain ⟨hk1, hk2⟩ := view_none hk
    simp only [State.step, State.declare, hk2, bind, new_ok]
    rw [if_neg]
    rintro ⟨h1, h2, h3⟩
    rcases hf with rfl | hf | hf
    · simp at h1
    · omega
    · rw [hf] at h3; simp at h3
  | @fromSlice k data hk h1 h2 =>
    subst hv
    obtain ⟨hk1, hk2⟩ := view_none hk
    have hp : 0 < data.length := List.length_pos_iff.mpr h1
    have hn : (UInt32.ofNat data.length).toNat = data.length := by rw [UInt32.toNat_ofNat']; omega
    have hput : put (List.replicate data.length none) 0 data = data.map some := by simp [put]
    have := wf_declare w hk1 (n := UInt32.ofNat data.length) (by omega) (by omega) (f := (put · 0 data)) (by rw [hn, put_length (by simp)]; simp)
    rw [hn] at this
    simp only [hput] at this
    refine ⟨_, ?_, this⟩
    simp only [State.step, State.declare, hk2, bind, fromSlice_eq]
    rw [snapshot_ok _ _ _ (by intro p hp'; simp at hp'; subst hp'; omega)]
    simp [hn, hp, h2]
  | @fromSliceFails k data g hk h1 hf =>
    subst hv
    obtain ⟨hk1, hk2⟩ := view_none hk
    have hn : (UInt32.ofNat data.length).toNat = data.length := by rw [UInt32.toNat_ofNat']; omega
    simp only [State.step, State.declare, hk2, bind, fromSlice_eq]
    rw [snapshot_ok _ _ _ (by intro p hp'; simp at hp'; subst hp'; omega), if_neg]
    rintro ⟨g1, g2, g3, -⟩
    rw [hn] at g1 g2
    rcases hf with rfl | hf | hf
    · simp at g1
    · omega
    · rw [hf] at g3; simp at g3
  | @snapshot k pieces n hk hp h1 h2 h3 =>
    subst hv
    obtain ⟨hk1, hk2⟩ := view_none hk
    have := wf_declare w hk1 h1 h2 (f := (put · 0 pieces.flatten)) (by rw [put_length (by simpa using h3)]; simp)
    refine ⟨_, ?_, this⟩
    simp only [State.step, State.declare, hk2, bind]
    rw [snapshot_ok _ _ _ hp]
    simp only [h1, h2, h3, and_self, if_true]
  | @snapshotFails k pieces n g hk hp hf =>
    subst hv
    obtain ⟨hk1, hk2⟩ := view_none hk
    simp only [State.step, State.declare, hk2, bind]
    rw [snapshot_ok _ _ _ hp, if_neg]
    rintro ⟨g1, g2, g3, g4⟩
    rcases hf with rfl | hf | hf | hf
    · simp at g1
    · omega
    · rw [hf] at g3; simp at g3
    · omega
  | @write k bytes offset data v' hm h1 h2 hv' =>
    subst hv hv'
    obtain ⟨b, hl, hb, g, hby, hlen⟩ := lookup_block w hm
    have := wf_write w hb (f := (put · offset.toNat data)) (by rw [← hby, put_length h2, hlen])
    refine ⟨_, ?_, this.1, ?_⟩
    · simp only [State.step, hl, bind, write_ok g h1]
      rw [if_pos (by omega)]
    · rw [this.2, ← hby]
  | @writeFails k bytes offset data hm h1 h2 =>
    subst hv
    obtain ⟨b, hl, hb, g, hby, hlen⟩ := lookup_block w hm
    simp only [State.step, hl, bind, write_ok g h1]
    rw [if_neg (by omega)]
  | @writeNothing k offset data hm =>
    subst hv
    refine ⟨s, ?_, w, rfl⟩
    simp only [State.step]
    split
    · rename_i b hl
      exact absurd (mem_view.mpr ⟨_, lookup_some hl, rfl⟩) (hm _)
    · rfl
  | @intoVec k bytes hm =>
    subst hv
    obtain ⟨b, hl, hb, g, hby, hlen⟩ := lookup_block w hm
    refine ⟨{ s with vars := (k, .vec b.convertToVec) :: s.without k }, by simp only [State.step, hl], ?_, ?_⟩
    · have hs := filter_same w hb
      refine ⟨?_, ?_, ?_, w.fresh, ?_, ?_⟩
      · intro x hx
        simp only [List.mem_cons] at hx
        rcases hx with rfl | hx
        · exact ⟨g.found, g.pos, g.small, fun b e => by cases e⟩
        · exact w.good x (hs x hx).1
      · simp only [List.map_cons, List.nodup_cons]
        refine ⟨?_, List.Nodup.sublist (List.Sublist.map _ List.filter_sublist) w.keys⟩
        intro hm'
        obtain ⟨x, hx, e⟩ := List.mem_map.mp hm'
        simp only [State.without, List.mem_filter, bne_iff_ne, ne_eq] at hx
        exact hx.2 e
      · simp only [List.map_cons, List.nodup_cons]
        refine ⟨?_, List.Nodup.sublist (List.Sublist.map _ List.filter_sublist) w.ptrs⟩
        intro hm'
        obtain ⟨x, hx, e⟩ := List.mem_map.mp hm'
        exact (hs x hx).2 e
      · intro a ha
        obtain ⟨y, hy, e⟩ := List.mem_map.mp (w.owned a ha)
        simp only [List.map_cons, List.mem_cons]
        by_cases hk : y.1 = k
        · left
          have h1 := lookup_mem w.keys (show (k, y.2) ∈ s.vars by rw [← hk]; exact hy)
          rw [hl] at h1
          simp only [Option.some.injEq] at h1
          rw [← e, ← h1]
          rfl
        · right
          refine List.mem_map.mpr ⟨y, ?_, e⟩
          simp only [State.without, List.mem_filter, bne_iff_ne, ne_eq]
          exact ⟨hy, hk⟩
      · intro h
        exact absurd rfl (hop h k)
    · simp only [State.view, View.mk.injEq, and_true, List.map_cons, List.cons.injEq, State.without, List.filter_map]
      exact ⟨by rw [hby]; rfl, rfl⟩
  | @intoVecNothing k hm =>
    subst hv
    refine ⟨s, ?_, w, rfl⟩
    simp only [State.step]
    split
    · rename_i b hl
      exact absurd (mem_view.mpr ⟨_, lookup_some hl, rfl⟩) (hm _)
    · rfl
  | @read k bytes i b hm hb =>
    subst hv
    obtain ⟨x, hl, g, hby, hlen⟩ := lookup_vec w hm
    refine ⟨{ s with seen := s.seen ++ [b] }, ?_, ⟨w.good, w.keys, w.ptrs, w.fresh, w.owned, w.blocks⟩, rfl⟩
    have hi : i < x.len := by
      rw [← hlen]
      exact (List.getElem?_eq_some_iff.mp hb).1
    obtain ⟨a, e, -, -⟩ := g.found
    simp only [Var.ptr] at e
    simp only [bytesAt, e, Option.elim] at hby
    simp only [State.step, hl, bind, Bytes.get, if_pos hi, e, ← hby, hb]
  | @readFails k bytes i hm hi =>
    subst hv
    obtain ⟨x, hl, g, hby, hlen⟩ := lookup_vec w hm
    simp only [State.step, hl, bind, Bytes.get]
    rw [if_neg (by omega)]
  | @readNothing k i hm =>
    subst hv
    refine ⟨s, ?_, w, rfl⟩
    simp only [State.step]
    split
    · rename_i b hl
      exact absurd (mem_view.mpr ⟨_, lookup_some hl, rfl⟩) (hm _)
    · rfl
  | @drop k =>
    subst hv
    cases hl : s.vars.lookup k with
    | none =>
      refine ⟨s, by simp only [State.step, hl], w, ?_⟩
      simp only [State.view, View.mk.injEq, and_true]
      symm
      rw [List.filter_eq_self]
      intro x hx
      obtain ⟨y, hy, rfl⟩ := List.mem_map.mp hx
      simp only [bne_iff_ne, ne_eq]
      rintro rfl
      exact lookup_none hl y.2 hy
    | some x =>
      have hx := lookup_some hl
      have := wf_drop w hx
      refine ⟨_, ?_, this⟩
      cases x with
      | block b =>
        have hd := dealloc_ok w hx (align := 4) (fun _ => rfl)
        have he := (w.good _ hx).layout b rfl
        simp only [Var.ptr, Var.size] at hd
        simp only [State.step, hl, bind, MemoryBlock.drop, he, hd, Var.ptr]
      | vec v =>
        have hd := dealloc_ok w hx (align := 1) (fun h => absurd hx (w.blocks h k v))
        have hp := (w.good _ hx).pos
        simp only [Var.ptr, Var.size] at hd hp
        simp only [State.step, hl, bind, Bytes.drop, if_neg (Nat.ne_of_gt hp), hd, Var.ptr]

theorem run_ok {strict : Bool} {ops : List Op} {v : View} {r : Option View} (h : Runs v ops r) :
    ∀ {s : State}, Wf strict s → s.view = v → (strict = true → ∀ k, .intoVec k ∉ ops) → match r with
      | some v => ∃ s', s.run strict ops = .ok s' ∧ Wf strict s' ∧ s'.view = v
      | none => s.run strict ops = .panic := by
  induction h with
  | nil => intro s w hv _; exact ⟨s, rfl, w, hv⟩
  | @cons v op v' ops r hd _ ih =>
    intro s w hv hop
    subst hv
    obtain ⟨s', e, w', hv'⟩ := step_ok w (fun h k e => hop h k (by simp [e])) hd
    have := ih w' hv' (fun h k hm => hop h k (List.mem_cons_of_mem _ hm))
    simp only [State.run, bind, e]
    cases r <;> exact this
  | panic hd =>
    intro s w hv hop
    subst hv
    have := step_ok w (fun h k e => hop h k (by simp [e])) hd
    simp only at this
    simp only [State.run, bind, this]

theorem wf_empty (strict : Bool) : Wf strict State.empty := by
  constructor <;> simp [State.empty]

theorem run_append (strict : Bool) (ops ops' : List Op) : ∀ {s s' : State}, s.run strict ops = .ok s' → s.run strict (ops ++ ops') = s'.run strict ops' := by
  induction ops with
  | nil => intro s s' h; cases h; rfl
  | cons op ops ih =>
    intro s s' h
    simp only [State.run, bind] at h
    simp only [List.cons_append, State.run, bind]
    cases e : s.step strict op with
    | ok s1 => rw [e] at h; exact ih h
    | panic => rw [e] at h; cases h
    | ub => rw [e] at h; cases h

/-! ## Theorems -/

/-- **C81** (part): whatever the program does with blocks of memory, as long as no offset is beyond 2³² and no byte is read that was not written,
nothing undefined happens. Writes change the bytes of their variable only, what is read is what was written there; a use that does not fit is a panic.
The memory of dropped variables is given back, once. The full property has no such conditions; and with an allocator that needs the alignment
(`strict`) it would allow blocks that become vectors. -/
theorem C81_memory_partial (strict : Bool) (ops : List Op) (r : Option View) (h : Runs View.empty ops r) (hs : strict = true → ∀ k, .intoVec k ∉ ops) :
    match r with
    | some v => ∃ s, State.empty.run strict ops = .ok s ∧ s.seen = v.seen ∧ s.vars.map (·.1) = v.things.map (·.1) ∧ (v.things = [] → s.heap.live = [])
    | none => State.empty.run strict ops = .panic := by
  have := run_ok h (wf_empty strict) rfl hs
  cases r with
  | none => exact this
  | some v =>
    obtain ⟨s, e, w, rfl⟩ := this
    refine ⟨s, e, rfl, by simp [State.view], ?_⟩
    intro hv
    have hv' : s.vars = [] := by simpa [State.view] using hv
    apply List.eq_nil_iff_forall_not_mem.mpr
    intro a ha
    have := w.owned a ha
    rw [hv'] at this
    simp at this

/-- Two blocks, a write, a vector that is read, all dropped. -/
example : Runs View.empty [.fromSlice 0 true [1, 2, 3], .new 1 true 2, .write 0 1 [7], .intoVec 0, .read 0 1, .read 0 2, .drop 1, .drop 0]
    (some ⟨[], [7, 3]⟩) := by
  refine .cons (.fromSlice (by simp [View.empty]) (by simp) (by simp)) ?_
  refine .cons (.new (by simp [View.empty]) (by decide) (by decide)) ?_
  refine .cons (.write (bytes := [some 1, some 2, some 3]) (by simp) (by decide) (by decide) rfl) ?_
  refine .cons (.intoVec (bytes := [some 1, some 7, some 3]) (by simp [put, View.empty])) ?_
  refine .cons (.read (bytes := [some 1, some 7, some 3]) (b := 7) (by simp) (by decide)) ?_
  refine .cons (.read (bytes := [some 1, some 7, some 3]) (b := 3) (by simp) (by decide)) ?_
  exact .cons .drop (.cons .drop .nil)

/-- A write that does not fit. -/
example : Runs View.empty [.new 0 true 2, .write 0 1 [7, 8]] none := by
  refine .cons (.new (by simp [View.empty]) (by decide) (by decide)) ?_
  exact .panic (.writeFails (bytes := [none, none]) (by simp) (by decide) (by decide))

/-- **C81**, where it fails: every block that becomes a vector (all messages from JavaScript do) is given back with alignment 1 instead of 4 when the
vector is dropped. Rust does not define what happens then. -/
theorem C81_layout_violated (ops : List Op) (v : View) (h : Runs View.empty ops (some v)) (hs : ∀ k, .intoVec k ∉ ops)
    (k : Nat) (bytes : List (Option UInt8)) (hk : (k, .block bytes) ∈ v.things) :
    State.empty.run true (ops ++ [.intoVec k, .drop k]) = .ub := by
  obtain ⟨s, e, w, rfl⟩ := run_ok h (wf_empty true) rfl (fun _ => hs)
  rw [run_append _ _ _ e]
  obtain ⟨b, hl, hb, g, hby, hlen⟩ := lookup_block w hk
  obtain ⟨a, e, hlay, -⟩ := g.found
  have hp := g.pos
  simp only [Var.ptr, Var.size] at e hlay hp
  simp [State.run, State.step, bind, hl, MemoryBlock.convertToVec, Bytes.drop, Nat.ne_of_gt hp, Heap.dealloc, e, hlay]

/-- **C81**, where it fails: a write whose end is beyond 2³² passes the check of the bounds, and writes outside of the block. -/
theorem C81_write_violated (strict : Bool) (ops : List Op) (v : View) (h : Runs View.empty ops (some v)) (hs : strict = true → ∀ k, .intoVec k ∉ ops)
    (k : Nat) (bytes : List (Option UInt8)) (hk : (k, .block bytes) ∈ v.things) (offset : UInt32) (data : List UInt8)
    (h1 : 2 ^ 32 ≤ offset.toNat + data.length) (h2 : offset.toNat + data.length ≤ 2 ^ 32 + bytes.length) :
    State.empty.run strict (ops ++ [.write k offset data]) = .ub := by
  obtain ⟨s, e, w, rfl⟩ := run_ok h (wf_empty strict) rfl hs
  rw [run_append _ _ _ e]
  obtain ⟨b, hl, hb, g, hby, hlen⟩ := lookup_block w hk
  obtain ⟨a, e, hlay, -⟩ := g.found
  have hsm := g.small
  have ho := offset.toNat_lt
  simp only [Var.ptr, Var.size] at e hlay hsm
  have hle : offset + UInt32.ofNat data.length ≤ b.size := by
    rw [UInt32.le_iff_toNat_le, UInt32.toNat_add, UInt32.toNat_ofNat']
    omega
  simp only [State.run, State.step, bind, hl, MemoryBlock.write, if_pos hle, Heap.copy, e, hlay]
  rw [if_neg]
  simp only [asIsize]
  split <;> omega

/-- A byte is written in front of the block. -/
example : State.empty.run false [.new 0 true 2, .write 0 4294967295 [7]] = .ub := by
  refine C81_write_violated false [.new 0 true 2] _ (.cons (.new (by simp [View.empty]) (by decide) (by decide)) .nil) (by simp) 0
    [none, none] (by simp) _ _ (by decide) (by decide)

/-- **C81**, where it fails: a new block can be read before it is written. -/
theorem C81_read_violated (ops : List Op) (v : View) (h : Runs View.empty ops (some v))
    (k : Nat) (bytes : List (Option UInt8)) (hk : (k, .vec bytes) ∈ v.things) (i : Nat) (hi : bytes[i]? = some none) :
    State.empty.run false (ops ++ [.read k i]) = .ub := by
  obtain ⟨s, e, w, rfl⟩ := run_ok h (wf_empty false) rfl (by simp)
  rw [run_append _ _ _ e]
  obtain ⟨x, hl, g, hby, hlen⟩ := lookup_vec w hk
  have hlt : i < x.len := by
    rw [← hlen]
    exact (List.getElem?_eq_some_iff.mp hi).1
  obtain ⟨a, e, -, -⟩ := g.found
  simp only [Var.ptr] at e
  simp only [bytesAt, e, Option.elim] at hby
  simp only [State.run, State.step, hl, bind, Bytes.get, if_pos hlt, e, ← hby, hi]

example : State.empty.run false [.new 0 true 2, .intoVec 0, .read 0 1] = .ub := by
  refine C81_read_violated [.new 0 true 2, .intoVec 0] _
    (.cons (.new (by simp [View.empty]) (by decide) (by decide)) (.cons (.intoVec (bytes := [none, none]) (by simp)) .nil)) 0 [none, none] (by simp) 1 rfl

end Verif.Unsafe
