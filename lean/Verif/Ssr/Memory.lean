import Verif.Codec.Arguments
import Verif.Ssr.Dispatch
/-!
# C74: the memory between the server and the program

Model of crates/vertigo-cli/src/serve/wasm/data_context.rs and of `wasm_callback` and the two imports in
wasm_instance.rs, with the side of the program: `fetch` (api_dom_access.rs:113-120), `show` (panic_message.rs:11-16),
`alloc` and `wasm_callback` (lib.rs:441-487), `Arguments` (arguments.rs).

The memory of the wasm instance is the one of C41 (`Shared`). What the program computes is a tree (`Prog`): the answer to
a command decides how it goes on. What the server answers is a parameter (C20 is about the answers).
-/
namespace Verif.Ssr.Memory
open Verif.Codec

/-! ## Model -/

instance (v : JsValue) : Decidable (v = .undefined) := by
  cases v <;> first | exact isTrue rfl | exact isFalse (by simp)

/-- The allocator of the program: an address for a block of the given size, and the memory as it is then. The program may
have written to memory of its own, and the memory may have grown. `none`: no memory is left (memory_block.rs:22-24 panics). -/
abbrev Allocator := Shared → Nat → Option (Nat × List UInt8)

/-- What is expected of the allocator and of the rest of the program: the block is in the memory, not at address 0, and apart from the blocks
of `Arguments`, which are left alone. -/
def Sound (a : Allocator) : Prop := ∀ s size ptr mem, a s size = some (ptr, mem) →
  FreeRange { s with mem := mem } ptr size ∧ s.mem.length ≤ mem.length ∧
    ∀ b ∈ s.blocks, readMem mem b.1 b.2 = readMem s.mem b.1 b.2

/-- What the program does from the time it is called until it returns. -/
inductive Prog where
  /-- it returns (`Undefined` for `vertigo_entry_function`) -/
  | done (result : JsValue)
  /-- a command for the host, and how it goes on with the answer -/
  | command (v : JsValue) (k : JsValue → Prog)
  /-- `PanicMessage::show` -/
  | report (message : String) (k : Prog)
  /-- a trap: what a panic in the program is, after its message -/
  | trap

/-- What arrives on either side. -/
inductive Event where
  | called (arg : JsValue)
  | command (v : JsValue)
  | answer (v : JsValue)
  | message (m : Option String)

/-- Why the server does not go on. -/
inductive Stop where
  /-- the program has no memory left -/
  | memory
  /-- the program has trapped, `unwrap` (wasm_instance.rs:167, 178) -/
  | trapped
  /-- `todo!()` (wasm_instance.rs:184) -/
  | todo
  /-- any other panic: a slice out of range, a broken block -/
  | broken
  deriving DecidableEq

structure State (σ : Type) where
  shared : Shared
  world : σ
  log : List Event := []

/-- data_context.rs:49-68 `get_value`. -/
def getValue (mem : List UInt8) (ptr size : Nat) : Out JsValue :=
  if ptr + size ≤ mem.length then
    match fromBlock (readMem mem ptr size) with
    | .ok v => .ok v
    | .err _ => .ok .undefined
    | .panic => .panic
    | .fuel => .fuel
  else .panic

/-- data_context.rs:70-88 `get_string_from`; the outer `none` is a slice out of range. -/
def getString (mem : List UInt8) (ptr size : Nat) : Option (Option String) :=
  if ptr + size ≤ mem.length then some (fromUtf8 (readMem mem ptr size)) else none

/-- data_context.rs:114-133 `save_value` with `alloc` (data_context.rs:90-112, lib.rs:441-445, arguments.rs:11-16): the address is 0 for `Undefined`. -/
def saveValue (a : Allocator) (s : Shared) (v : JsValue) : Except Stop (Shared × Nat) :=
  if v = .undefined then .ok (s, 0)
  else
    match v.toSnapshot with
    | .ok w =>
        match a s w.size with
        | none => .error .memory
        | some (ptr, mem) =>
            if ptr + w.size ≤ mem.length then .ok (⟨writeMem mem ptr w.written, insertBlock s.blocks ptr w.size⟩, ptr)
            else .error .broken
    | _ => .error .broken

/-- api_dom_access.rs:113-120 `fetch` with the import `dom_access` (wasm_instance.rs:45-139): the command is written to a block of the program, the
server reads it and saves the answer, the program takes the answer. -/
def command (a : Allocator) (answer : σ → JsValue → JsValue × σ) (s : State σ) (v : JsValue) : State σ × Except Stop JsValue :=
  match v.toSnapshot with
  | .ok w =>
      match a s.shared w.size with
      | none => (s, .error .memory)
      | some (ptr, mem) =>
          let mem := writeMem mem ptr w.written
          match getValue mem ptr w.size with
          | .ok v' =>
              let (u, world) := answer s.world v'
              let s := { shared := { s.shared with mem := mem }, world := world, log := s.log ++ [.command v'] : State σ }
              match saveValue a s.shared u with
              | .error e => (s, .error e)
              | .ok (shared, ptr) =>
                  match shared.getByPtr ptr with
                  | (.ok u', shared) => ({ s with shared := shared, log := s.log ++ [.answer u'] }, .ok u')
                  | (_, shared) => ({ s with shared := shared }, .error .broken)
          | _ => (s, .error .broken)
  | _ => (s, .error .broken)

/-- panic_message.rs:11-16 `show` with the import `panic_message` (wasm_instance.rs:30-41). -/
def report (a : Allocator) (s : State σ) (message : String) : State σ × Option Stop :=
  match a s.shared (strBytes message).length with
  | none => (s, some .memory)
  | some (ptr, mem) =>
      let mem := writeMem mem ptr (strBytes message)
      match getString mem ptr (strBytes message).length with
      | some m => ({ s with shared := { s.shared with mem := mem }, log := s.log ++ [.message m] }, none)
      | none => (s, some .broken)

/-- What the program does. -/
def run (a : Allocator) (answer : σ → JsValue → JsValue × σ) : Prog → State σ → State σ × Except Stop JsValue
  | .done r, s => (s, .ok r)
  | .command v k, s =>
      match command a answer s v with
      | (s, .error e) => (s, .error e)
      | (s, .ok u) => run a answer (k u) s
  | .report m k, s =>
      match report a s m with
      | (s, some e) => (s, .error e)
      | (s, none) => run a answer k s
  | .trap, s => (s, .error .trapped)

/-- wasm_instance.rs:171-187 `wasm_callback` with lib.rs:458-487: the argument is saved, the program takes it; a result other than `Undefined`
is left in a block (lib.rs:474-480). `none`: the server goes on. -/
def callback (a : Allocator) (answer : σ → JsValue → JsValue × σ) (s : State σ) (arg : JsValue) (f : JsValue → Prog) : State σ × Option Stop :=
  match saveValue a s.shared arg with
  | .error e => (s, some e)
  | .ok (shared, ptr) =>
      match shared.getByPtr ptr with
      | (.ok arg', shared) =>
          match run a answer (f arg') { s with shared := shared, log := s.log ++ [.called arg'] } with
          | (s, .error e) => (s, some e)
          | (s, .ok r) =>
              if r = .undefined then (s, none)
              else
                match saveValue a s.shared r with
                | .error e => (s, some e)
                | .ok (shared, _) => ({ s with shared := shared }, some .todo)
      | (_, shared) => ({ s with shared := shared }, some .broken)

/-- The calls for one page, one after the other (server_state.rs:51, html_response.rs:122-214): `vertigo_entry_function` is a call with `Undefined`. -/
def session (a : Allocator) (answer : σ → JsValue → JsValue × σ) : List (JsValue × (JsValue → Prog)) → State σ → State σ × Option Stop
  | [], s => (s, none)
  | (arg, f) :: calls, s =>
      match callback a answer s arg f with
      | (s, some e) => (s, some e)
      | (s, none) => session a answer calls s

/-! ## Specification: what is sent, if there is nothing between the two sides -/

structure Sent (σ : Type) where
  events : List Event
  /-- what the program returns; `none` if it traps -/
  result : Option JsValue
  world : σ

def Prog.sent (answer : σ → JsValue → JsValue × σ) : Prog → σ → Sent σ
  | .done r, w => ⟨[], some r, w⟩
  | .command v k, w =>
      let r := (k (answer w v).1).sent answer (answer w v).2
      { r with events := .command v :: .answer (answer w v).1 :: r.events }
  | .report m k, w =>
      let r := k.sent answer w
      { r with events := .message (some m) :: r.events }
  | .trap, w => ⟨[], none, w⟩

structure SentAll (σ : Type) where
  events : List Event
  /-- what stops the server -/
  stop : Option Stop
  world : σ

/-- The calls up to the first one that does not return `Undefined`. -/
def sentAll (answer : σ → JsValue → JsValue × σ) : List (JsValue × (JsValue → Prog)) → σ → SentAll σ
  | [], w => ⟨[], none, w⟩
  | (arg, f) :: calls, w =>
      let r := (f arg).sent answer w
      match r.result with
      | none => ⟨.called arg :: r.events, some .trapped, r.world⟩
      | some v =>
          if v = .undefined then
            let rest := sentAll answer calls r.world
            { rest with events := .called arg :: (r.events ++ rest.events) }
          else ⟨.called arg :: r.events, some .todo, r.world⟩

/-- The values that can be carried (C15): no `JsValue::Object`, shorter than 4 GiB. -/
def Carried (v : JsValue) : Prop := v.WF ∧ v.NoObject ∧ v.wireLen + 1 < 2 ^ 32

def Prog.Carried (answer : σ → JsValue → JsValue × σ) : Prog → σ → Prop
  | .done r, _ => Memory.Carried r
  | .command v k, w => Memory.Carried v ∧ Memory.Carried (answer w v).1 ∧ (k (answer w v).1).Carried answer (answer w v).2
  | .report _ k, w => k.Carried answer w
  | .trap, _ => True

def CarriedAll (answer : σ → JsValue → JsValue × σ) : List (JsValue × (JsValue → Prog)) → σ → Prop
  | [], _ => True
  | (arg, f) :: calls, w => Carried arg ∧ (f arg).Carried answer w ∧ CarriedAll answer calls ((f arg).sent answer w).world

/-! ## Proof -/

theorem fromBlock_enc {v : JsValue} (h : Carried v) : fromBlock (encV v) = .ok v := by
  obtain ⟨w, h1, h2⟩ := C15_value_roundtrip_partial v h.1 h.2.1 h.2.2
  rw [(toSnapshot_eq v (by have := h.2.2; omega)).1] at h1
  cases h1
  exact h2

theorem snapshot_enc {v : JsValue} (h : Carried v) : v.toSnapshot = .ok ⟨v.wireLen, encV v⟩ := by
  obtain ⟨h1, h2⟩ := toSnapshot_eq v (by have := h.2.2; omega)
  rw [h1, h2]

theorem getValue_enc {v : JsValue} (h : Carried v) {mem : List UInt8} {ptr : Nat} (hp : ptr + v.wireLen ≤ mem.length) :
    getValue (writeMem mem ptr (encV v)) ptr v.wireLen = .ok v := by
  have hl : (encV v).length = v.wireLen := encV_length v
  unfold getValue
  rw [writeMem_length _ _ _ (by omega), if_pos hp, ← hl, readMem_writeMem_same _ _ _ (by omega), fromBlock_enc h]

/-- What is saved is taken, and nothing is left. -/
theorem save_take {a : Allocator} (ha : Sound a) {s : Shared} (hs : s.blocks = []) {v : JsValue} (h : Carried v) :
    saveValue a s v = .error .memory ∨
      ∃ s' ptr mem, saveValue a s v = .ok (s', ptr) ∧ s'.getByPtr ptr = (.ok v, ⟨mem, []⟩) := by
  unfold saveValue
  by_cases hu : v = .undefined
  · refine .inr ⟨s, 0, s.mem, by rw [if_pos hu], ?_⟩
    unfold Shared.getByPtr
    rw [if_pos rfl, hu, ← hs]
  · rw [if_neg hu, snapshot_enc h]
    dsimp only
    cases e : a s v.wireLen with
    | none => exact .inl rfl
    | some p =>
      obtain ⟨ptr, mem⟩ := p
      obtain ⟨⟨h0, h1, -⟩, -, -⟩ := ha _ _ _ _ e
      have h1 : ptr + v.wireLen ≤ mem.length := h1
      have hl : (encV v).length = v.wireLen := encV_length v
      dsimp only
      rw [if_pos h1, hs]
      refine .inr ⟨_, ptr, writeMem mem ptr (encV v), rfl, ?_⟩
      unfold Shared.getByPtr
      rw [if_neg (by omega)]
      have hf : findBlock (insertBlock [] ptr v.wireLen) ptr = some v.wireLen := by rw [findBlock_insert, if_pos rfl]
      dsimp only
      rw [hf]
      dsimp only
      have hr : readMem (writeMem mem ptr (encV v)) ptr v.wireLen = encV v := by
        rw [← hl]; exact readMem_writeMem_same _ _ _ (by omega)
      rw [hr, fromBlock_enc h]
      simp [insertBlock, removeBlock]

theorem command_eq {a : Allocator} (ha : Sound a) (answer : σ → JsValue → JsValue × σ) {s : State σ} (hs : s.shared.blocks = [])
    {v : JsValue} (h : Carried v) (hu : Carried (answer s.world v).1) :
    ((command a answer s v).2 = .error .memory ∧ (∃ l, (command a answer s v).1.log = s.log ++ l ∧ l <+: [.command v])) ∨
      ∃ mem, command a answer s v = (⟨⟨mem, []⟩, (answer s.world v).2, s.log ++ [.command v, .answer (answer s.world v).1]⟩,
        .ok (answer s.world v).1) := by
  unfold command
  rw [snapshot_enc h]
  dsimp only
  cases e : a s.shared v.wireLen with
  | none => exact .inl ⟨rfl, [], by simp, List.nil_prefix⟩
  | some p =>
    obtain ⟨ptr, mem⟩ := p
    obtain ⟨⟨-, h1, -⟩, -, -⟩ := ha _ _ _ _ e
    dsimp only
    rw [getValue_enc h h1]
    dsimp only
    rcases save_take ha (s := { s.shared with mem := writeMem mem ptr (encV v) }) hs hu with e | ⟨s', q, m, e, e'⟩
    · rw [e]
      exact .inl ⟨rfl, _, rfl, List.prefix_rfl⟩
    · rw [e]
      dsimp only
      rw [e']
      exact .inr ⟨m, by simp⟩

theorem report_eq {a : Allocator} (ha : Sound a) {s : State σ} (hs : s.shared.blocks = []) (m : String) :
    report a s m = (s, some .memory) ∨ ∃ mem, report a s m = (⟨⟨mem, []⟩, s.world, s.log ++ [.message (some m)]⟩, none) := by
  unfold report
  cases e : a s.shared (strBytes m).length with
  | none => exact .inl rfl
  | some p =>
    obtain ⟨ptr, mem⟩ := p
    obtain ⟨⟨-, h1, -⟩, -, -⟩ := ha _ _ _ _ e
    have h1 : ptr + (strBytes m).length ≤ mem.length := h1
    dsimp only
    have hg : getString (writeMem mem ptr (strBytes m)) ptr (strBytes m).length = some (some m) := by
      unfold getString
      rw [writeMem_length _ _ _ h1, if_pos h1, readMem_writeMem_same _ _ _ h1, fromUtf8_strBytes]
    rw [hg]
    dsimp only
    rw [hs]
    exact .inr ⟨_, rfl⟩

theorem run_eq {a : Allocator} (ha : Sound a) (answer : σ → JsValue → JsValue × σ) : ∀ (p : Prog) (s : State σ),
    s.shared.blocks = [] → p.Carried answer s.world →
    ((run a answer p s).2 = .error .memory ∧ ∃ l, (run a answer p s).1.log = s.log ++ l ∧ l <+: (p.sent answer s.world).events) ∨
    ((run a answer p s).1.log = s.log ++ (p.sent answer s.world).events ∧ (run a answer p s).1.shared.blocks = [] ∧
      (run a answer p s).1.world = (p.sent answer s.world).world ∧
      (run a answer p s).2 = match (p.sent answer s.world).result with | some r => .ok r | none => .error .trapped)
  | .done r, s, hs, _ => .inr ⟨by simp [run, Prog.sent], hs, rfl, rfl⟩
  | .trap, s, hs, _ => .inr ⟨by simp [run, Prog.sent], hs, rfl, rfl⟩
  | .report m k, s, hs, h => by
      rcases report_eq ha hs m with e | ⟨mem, e⟩
      · refine .inl ⟨by simp only [run, e], [], by simp only [run, e, List.append_nil], List.nil_prefix⟩
      · have hr : run a answer (.report m k) s = run a answer k ⟨⟨mem, []⟩, s.world, s.log ++ [.message (some m)]⟩ := by
          simp only [run, e]
        rw [hr]
        rcases run_eq ha answer k ⟨⟨mem, []⟩, s.world, s.log ++ [.message (some m)]⟩ rfl h with ⟨e1, l, e2, e3⟩ | ⟨e1, e2, e3, e4⟩
        · refine .inl ⟨e1, .message (some m) :: l, by rw [e2]; simp, ?_⟩
          exact List.cons_prefix_cons.mpr ⟨rfl, e3⟩
        · exact .inr ⟨by rw [e1]; simp [Prog.sent], e2, e3, e4⟩
  | .command v k, s, hs, ⟨h1, h2, h3⟩ => by
      rcases command_eq ha answer hs h1 h2 with ⟨e1, l, e2, e3⟩ | ⟨mem, e⟩
      · have hr : run a answer (.command v k) s = ((command a answer s v).1, .error .memory) := by
          simp only [run]
          split
          · rename_i e
            rw [e] at e1
            rw [← e1, e]
          · rename_i e
            rw [e] at e1
            cases e1
        rw [hr]
        refine .inl ⟨rfl, l, e2, ?_⟩
        exact e3.trans ⟨_, rfl⟩
      · have hr : run a answer (.command v k) s = run a answer (k (answer s.world v).1)
            ⟨⟨mem, []⟩, (answer s.world v).2, s.log ++ [.command v, .answer (answer s.world v).1]⟩ := by
          simp only [run, e]
        rw [hr]
        rcases run_eq ha answer (k (answer s.world v).1)
            ⟨⟨mem, []⟩, (answer s.world v).2, s.log ++ [.command v, .answer (answer s.world v).1]⟩ rfl h3 with ⟨e1, l, e2, e3⟩ | ⟨e1, e2, e3, e4⟩
        · refine .inl ⟨e1, .command v :: .answer (answer s.world v).1 :: l, by rw [e2]; simp, ?_⟩
          exact List.cons_prefix_cons.mpr ⟨rfl, List.cons_prefix_cons.mpr ⟨rfl, e3⟩⟩
        · exact .inr ⟨by rw [e1]; simp [Prog.sent], e2, e3, e4⟩

theorem session_eq {a : Allocator} (ha : Sound a) (answer : σ → JsValue → JsValue × σ) : ∀ (calls : List (JsValue × (JsValue → Prog)))
    (s : State σ), s.shared.blocks = [] → CarriedAll answer calls s.world →
    ((session a answer calls s).2 = some .memory ∧
      ∃ l, (session a answer calls s).1.log = s.log ++ l ∧ l <+: (sentAll answer calls s.world).events) ∨
    ((session a answer calls s).1.log = s.log ++ (sentAll answer calls s.world).events ∧
      (session a answer calls s).2 = (sentAll answer calls s.world).stop ∧
      (session a answer calls s).1.world = (sentAll answer calls s.world).world ∧
      ((session a answer calls s).2 = none → (session a answer calls s).1.shared.blocks = []))
  | [], s, hs, _ => .inr ⟨by simp [session, sentAll], rfl, rfl, fun _ => hs⟩
  | (arg, f) :: calls, s, hs, ⟨h1, h2, h3⟩ => by
      have ih := session_eq ha answer calls
      simp only [session, callback]
      rcases save_take ha hs h1 with e | ⟨s1, ptr, mem, e, e'⟩
      · rw [e]
        exact .inl ⟨rfl, [], by simp, List.nil_prefix⟩
      rw [e]
      dsimp only
      rw [e']
      dsimp only
      have hrun := run_eq ha answer (f arg) ⟨⟨mem, []⟩, s.world, s.log ++ [.called arg]⟩ rfl h2
      generalize run a answer (f arg) ⟨⟨mem, []⟩, s.world, s.log ++ [.called arg]⟩ = r at hrun
      obtain ⟨t, res⟩ := r
      dsimp only at hrun
      rcases hrun with ⟨rfl, l, e2, e3⟩ | ⟨e1, e2, e3, e4⟩
      · refine .inl ⟨rfl, .called arg :: l, by dsimp only; rw [e2]; simp, ?_⟩
        simp only [sentAll]
        split
        · exact List.cons_prefix_cons.mpr ⟨rfl, e3⟩
        · split
          · exact List.cons_prefix_cons.mpr ⟨rfl, e3.trans (List.prefix_append ..)⟩
          · exact List.cons_prefix_cons.mpr ⟨rfl, e3⟩
      · simp only [sentAll]
        cases hres : ((f arg).sent answer s.world).result with
        | none =>
          rw [hres] at e4
          subst e4
          exact .inr ⟨by dsimp only; rw [e1]; simp, rfl, e3, fun h => by cases h⟩
        | some v =>
          rw [hres] at e4
          subst e4
          dsimp only
          by_cases hv : v = .undefined
          · rw [if_pos hv, if_pos hv]
            dsimp only
            rcases ih t e2 (by rw [e3]; exact h3) with ⟨g1, l, g2, g3⟩ | ⟨g1, g2, g4, g3⟩
            · refine .inl ⟨g1, .called arg :: ((f arg).sent answer s.world).events ++ l, by rw [g2, e1]; simp, ?_⟩
              rw [e3] at g3
              rw [List.cons_append]
              exact List.cons_prefix_cons.mpr ⟨rfl, (List.prefix_append_right_inj _).mpr g3⟩
            · refine .inr ⟨by rw [g1, e1, e3]; simp, by rw [g2, e3], by rw [g4, e3], g3⟩
          · rw [if_neg hv, if_neg hv]
            dsimp only
            have hc : Carried v := by
              have : ∀ (p : Prog) (w : σ), p.Carried answer w → ∀ r, (p.sent answer w).result = some r → Carried r := by
                intro p
                induction p with
                | done r => intro w h r' e; cases e; exact h
                | command u k ihk => intro w h r e; exact ihk _ _ h.2.2 r e
                | report m k ihk => intro w h r e; exact ihk w h r e
                | trap => intro w h r e; cases e
              exact this _ _ h2 _ hres
            rcases save_take ha e2 hc with e | ⟨s', q, m, e, -⟩
            · rw [e]
              refine .inl ⟨rfl, .called arg :: ((f arg).sent answer s.world).events, by dsimp only; rw [e1]; simp, List.prefix_rfl⟩
            · rw [e]
              exact .inr ⟨by dsimp only; rw [e1]; simp, rfl, e3, fun h => by cases h⟩

/-! ## Theorems -/

/-- **C74.** Any calls for a page, of any programs, with any answers: as long as the program has memory, what arrives on either side is what was
sent, in that order: arguments, commands, answers and messages. The server stops only if the program traps or returns
something. If it does not stop, no block is left. If there is no memory left, what has arrived is the beginning of what was sent.
Missing: values that contain an object, see C15; and the stops, see below. -/
theorem C74_arrives_partial {a : Allocator} (ha : Sound a) (answer : σ → JsValue → JsValue × σ) (calls : List (JsValue × (JsValue → Prog)))
    (mem : List UInt8) (w : σ) (h : CarriedAll answer calls w) :
    let r := session a answer calls { shared := ⟨mem, []⟩, world := w }
    (r.2 = some .memory ∧ r.1.log <+: (sentAll answer calls w).events) ∨
    (r.1.log = (sentAll answer calls w).events ∧ r.2 = (sentAll answer calls w).stop ∧ r.1.world = (sentAll answer calls w).world ∧ (r.2 = none → r.1.shared.blocks = [])) := by
  rcases session_eq ha answer calls { shared := ⟨mem, []⟩, world := w } rfl h with ⟨e1, l, e2, e3⟩ | ⟨e1, e2, e4, e3⟩
  · refine .inl ⟨e1, ?_⟩
    rw [e2]
    simpa using e3
  · refine .inr ⟨?_, e2, e4, e3⟩
    rw [e1]
    simp

/-- A call that returns something stops the server, although the program has done nothing wrong (`todo!()`). -/
theorem C74_result_violated {a : Allocator} (ha : Sound a) (answer : σ → JsValue → JsValue × σ) (arg r : JsValue) (harg : Carried arg)
    (hr : Carried r) (hne : r ≠ .undefined) (calls : List (JsValue × (JsValue → Prog))) (mem : List UInt8) (w : σ) :
    (session a answer ((arg, fun _ => .done r) :: calls) { shared := ⟨mem, []⟩, world := w }).2 = some .memory ∨
    (session a answer ((arg, fun _ => .done r) :: calls) { shared := ⟨mem, []⟩, world := w }).2 = some .todo := by
  have hs : session a answer ((arg, fun _ => .done r) :: calls) { shared := ⟨mem, []⟩, world := w } =
      session a answer [(arg, fun _ => .done r)] { shared := ⟨mem, []⟩, world := w } := by
    simp only [session]
    rcases hc : callback a answer { shared := ⟨mem, []⟩, world := w } arg fun _ => .done r with ⟨s, (_ | e)⟩
    · exfalso
      simp only [callback] at hc
      split at hc
      · cases hc
      · split at hc
        · simp only [run] at hc
          rw [if_neg hne] at hc
          split at hc <;> cases hc
        · cases hc
    · rfl
  rw [hs]
  rcases C74_arrives_partial ha answer [(arg, fun _ => .done r)] mem w ⟨harg, hr, trivial⟩ with ⟨e, -⟩ | ⟨-, e, -, -⟩
  · exact .inl e
  · refine .inr ?_
    rw [e]
    simp [sentAll, Prog.sent, hne]

/-- A panic of the program: its message arrives, and then the server stops instead of sending the error (C31). -/
theorem C74_panic_violated {a : Allocator} (ha : Sound a) (answer : σ → JsValue → JsValue × σ) (arg : JsValue) (harg : Carried arg)
    (message : String) (mem : List UInt8) (w : σ) :
    let r := session a answer [(arg, fun _ => .report message .trap)] { shared := ⟨mem, []⟩, world := w }
    r.2 = some .memory ∨ (r.1.log = [.called arg, .message (some message)] ∧ r.2 = some .trapped) := by
  rcases C74_arrives_partial ha answer [(arg, fun _ => .report message .trap)] mem w ⟨harg, trivial, trivial⟩ with ⟨e, -⟩ | ⟨e, e', -, -⟩
  · exact .inl e
  · refine .inr ⟨?_, ?_⟩
    · rw [e]; simp [sentAll, Prog.sent]
    · rw [e']; simp [sentAll, Prog.sent]

/-- A command with an object in it arrives as `Undefined` (C15). -/
theorem C74_object_violated {a : Allocator} (ha : Sound a) (answer : σ → JsValue → JsValue × σ) (v : JsValue) (hw : v.WF)
    (hl : v.wireLen < 2 ^ 24) (ho : ¬ v.NoObject) (mem : List UInt8) (w : σ) :
    let r := session a answer [(.undefined, fun _ => .command v fun _ => .done .undefined)] { shared := ⟨mem, []⟩, world := w }
    r.2 = some .memory ∨ [.called .undefined, .command .undefined] <+: r.1.log := by
  obtain ⟨m, h1, h2⟩ := C15_object_violated v hw hl ho
  obtain ⟨g1, g2⟩ := toSnapshot_eq v (by omega)
  rw [g1] at h1
  cases h1
  have hs : saveValue a ⟨mem, []⟩ .undefined = .ok (⟨mem, []⟩, 0) := rfl
  simp only [session, callback, hs, Shared.getByPtr, if_true, List.nil_append, run]
  have hc : ∀ s : State σ, (command a answer s v).2 = .error .memory ∨ s.log ++ [.command .undefined] <+: (command a answer s v).1.log := by
    intro s
    unfold command
    rw [g1, g2]
    dsimp only
    cases e : a s.shared v.wireLen with
    | none => exact .inl rfl
    | some p =>
      obtain ⟨ptr, m⟩ := p
      obtain ⟨⟨-, h1, -⟩, -, -⟩ := ha _ _ _ _ e
      have h1 : ptr + v.wireLen ≤ m.length := h1
      have hl : (encV v).length = v.wireLen := encV_length v
      have hg : getValue (writeMem m ptr (encV v)) ptr v.wireLen = .ok .undefined := by
        unfold getValue
        rw [writeMem_length _ _ _ (by omega), if_pos h1, ← hl, readMem_writeMem_same _ _ _ (by omega)]
        dsimp only at h2
        rw [h2]
      dsimp only
      rw [hg]
      dsimp only
      refine .inr ?_
      split
      · exact List.prefix_rfl
      · split
        · exact List.prefix_append ..
        · exact List.prefix_rfl
  rcases hc ⟨⟨mem, []⟩, w, [.called .undefined]⟩ with h | h
  · generalize command a answer ⟨⟨mem, []⟩, w, [.called .undefined]⟩ v = r at h
    obtain ⟨t, res⟩ := r
    dsimp only at h
    subst h
    exact .inl rfl
  · generalize command a answer ⟨⟨mem, []⟩, w, [.called .undefined]⟩ v = r at h
    obtain ⟨t, res⟩ := r
    dsimp only at h
    cases res with
    | error e => exact .inr h
    | ok u => exact .inr h

/-! ## With the answers of the server (C20) -/

/-- wasm_instance.rs:45-139: the messages go to the loop of the page, the answer to the program. -/
def serverAnswer (r : Request) (messages : List Message) (v : JsValue) : JsValue × List Message :=
  ((perform r (dispatch v)).2, messages ++ (perform r (dispatch v)).1)

/-- The commands among the events. -/
def commands (l : List Event) : List JsValue := l.filterMap fun | .command v => some v | _ => none

/-- The answers are among the values that can be carried, if the url and the environment are. -/
theorem answer_carried (r : Request) (hu : r.url.utf8ByteSize < 2 ^ 31) (he : ∀ n v, r.env n = some v → v.utf8ByteSize < 2 ^ 31)
    (m : List Message) (v : JsValue) : Carried (serverAnswer r m v).1 := by
  unfold serverAnswer
  cases dispatch v <;> simp only [perform] <;>
    first
    | exact ⟨trivial, trivial, by simp only [JsValue.wireLen]; omega⟩
    | skip
  rename_i n
  cases e : r.env n with
  | none => exact ⟨trivial, trivial, by simp [JsValue.wireLen]⟩
  | some u => have := he n u e; exact ⟨trivial, trivial, by simp only [JsValue.wireLen]; omega⟩

/-- The values the program sends can be carried. -/
def Prog.Sendable (answer : σ → JsValue → JsValue × σ) : Prog → σ → Prop
  | .done r, _ => Memory.Carried r
  | .command v k, w => Memory.Carried v ∧ (k (answer w v).1).Sendable answer (answer w v).2
  | .report _ k, w => k.Sendable answer w
  | .trap, _ => True

def SendableAll (answer : σ → JsValue → JsValue × σ) : List (JsValue × (JsValue → Prog)) → σ → Prop
  | [], _ => True
  | (arg, f) :: calls, w => Carried arg ∧ (f arg).Sendable answer w ∧ SendableAll answer calls ((f arg).sent answer w).world

theorem Prog.Sendable.carried {answer : σ → JsValue → JsValue × σ} (ha : ∀ w v, Memory.Carried (answer w v).1) :
    ∀ {p : Prog} {w : σ}, p.Sendable answer w → p.Carried answer w := by
  intro p
  induction p with
  | done r => exact fun h => h
  | command v k ih => exact fun h => ⟨h.1, ha _ v, ih _ h.2⟩
  | report m k ih => exact fun h => ih h
  | trap => exact fun _ => trivial

theorem SendableAll.carried {answer : σ → JsValue → JsValue × σ} (ha : ∀ w v, Carried (answer w v).1) :
    ∀ {calls : List (JsValue × (JsValue → Prog))} {w : σ}, SendableAll answer calls w → CarriedAll answer calls w
  | [], _, _ => trivial
  | _ :: _, _, ⟨h1, h2, h3⟩ => ⟨h1, h2.carried ha, h3.carried ha⟩

theorem sent_messages (r : Request) : ∀ (p : Prog) (m : List Message),
    (p.sent (serverAnswer r) m).world = m ++ (commands (p.sent (serverAnswer r) m).events).flatMap fun v => (perform r (dispatch v)).1 := by
  intro p
  induction p with
  | done v => intro m; simp [Prog.sent, commands]
  | command v k ih => intro m; simp [Prog.sent, commands, ih, serverAnswer]
  | report t k ih => intro m; simp [Prog.sent, commands, ih]
  | trap => intro m; simp [Prog.sent, commands]

theorem sentAll_messages (r : Request) : ∀ (calls : List (JsValue × (JsValue → Prog))) (m : List Message),
    (sentAll (serverAnswer r) calls m).world =
      m ++ (commands (sentAll (serverAnswer r) calls m).events).flatMap fun v => (perform r (dispatch v)).1
  | [], m => by simp [sentAll, commands]
  | (arg, f) :: calls, m => by
      have h := sent_messages r (f arg) m
      simp only [sentAll]
      split
      · simpa [commands] using h
      · split
        · dsimp only
          rw [sentAll_messages r calls, h]
          simp [commands]
        · simpa [commands] using h

/-- **C74, the page.** With the answers of C20: the messages for the page are those of the commands that the program has sent, in the same order,
each one as it was sent. -/
theorem C74_messages_partial {a : Allocator} (ha : Sound a) (r : Request) (hu : r.url.utf8ByteSize < 2 ^ 31)
    (he : ∀ n v, r.env n = some v → v.utf8ByteSize < 2 ^ 31) (calls : List (JsValue × (JsValue → Prog)))
    (h : SendableAll (serverAnswer r) calls []) (mem : List UInt8) :
    let s := session a (serverAnswer r) calls { shared := ⟨mem, []⟩, world := [] }
    s.2 = some .memory ∨
    s.1.world = (commands (sentAll (serverAnswer r) calls []).events).flatMap fun v => (perform r (dispatch v)).1 := by
  rcases C74_arrives_partial ha (serverAnswer r) calls mem [] (h.carried (answer_carried r hu he)) with ⟨e, -⟩ | ⟨-, -, e, -⟩
  · exact .inl e
  · refine .inr ?_
    rw [e, sentAll_messages]
    simp

/-! ## Examples -/

/-- An allocator: every block behind the memory there is (which grows), up to 1000 bytes. -/
def bump : Allocator := fun s size =>
  if s.mem.length + 1 + size ≤ 1000 ∧ ∀ b ∈ s.blocks, b.1 + b.2 ≤ s.mem.length then
    some (s.mem.length + 1, s.mem ++ List.replicate (size + 1) 0)
  else none

theorem bump_sound : Sound bump := by
  intro s size ptr mem h
  unfold bump at h
  split at h
  · rename_i hc
    cases h
    refine ⟨⟨by omega, by simp; omega, ?_⟩, by simp, ?_⟩
    · intro b hb
      exact .inr (by have := hc.2 b hb; omega)
    · intro b hb
      have := hc.2 b hb
      unfold readMem
      rw [List.drop_append_of_le_length (by omega), List.take_append_of_le_length (by simp; omega)]
  · cases h

/-- The program asks for an environment variable and sends the answer as a plain response; then a timer calls it with a list. -/
def exampleCalls : List (JsValue × (JsValue → Prog)) :=
  [(.undefined, fun _ => .command (encode (.getEnv "name")) fun
      | .str s => .command (encode (.plainResponse s)) fun _ => .done .undefined
      | _ => .report "no name" .trap),
    (.list [.tru, .u32 7], fun v => .command (.list [v]) fun _ => .done .undefined)]

def exampleRequest : Request := ⟨"/", fun n => if n = "name" then some "x" else none, 0⟩

/-- It arrives, and the messages are those for the page; there is memory enough. -/
example : (session bump (serverAnswer exampleRequest) exampleCalls { shared := ⟨List.replicate 16 0, []⟩, world := [] }).2 = none := by
  decide +kernel

example : SendableAll (serverAnswer exampleRequest) exampleCalls [] := by
  refine ⟨⟨trivial, trivial, by decide⟩, ⟨⟨?_, ?_, by decide⟩, ?_⟩, ⟨?_, ?_, by decide⟩, ⟨⟨?_, ?_, by decide⟩, ⟨trivial, trivial, by decide⟩⟩, trivial⟩
  · simp [encode, JsValue.WF, JsValue.WFL, api, call]
  · simp [encode, JsValue.NoObject, JsValue.NoObjectL, api, call]
  · refine ⟨⟨?_, ?_, by decide⟩, ⟨trivial, trivial, by decide⟩⟩
    · simp [encode, JsValue.WF, JsValue.WFL, synthetic]
    · simp [encode, JsValue.NoObject, JsValue.NoObjectL, synthetic]
  · simp [JsValue.WF, JsValue.WFL]
  · simp [JsValue.NoObject, JsValue.NoObjectL]
  · simp [JsValue.WF, JsValue.WFL]
  · simp [JsValue.NoObject, JsValue.NoObjectL]

/-- The same program without the variable: the message arrives, and the server stops. -/
example : (session bump (serverAnswer { exampleRequest with env := fun _ => none }) exampleCalls
    { shared := ⟨List.replicate 16 0, []⟩, world := [] }).2 = some .trapped := by
  decide +kernel

example : ¬ (JsValue.list [.obj [("a", .tru)]]).NoObject := by simp [JsValue.NoObject, JsValue.NoObjectL]

/-- A callback that returns something stops it as well. -/
example : (session bump (serverAnswer exampleRequest) [(.u32 1, fun v => .done v)]
    { shared := ⟨List.replicate 16 0, []⟩, world := [] }).2 = some .todo := by
  decide +kernel

end Verif.Ssr.Memory
