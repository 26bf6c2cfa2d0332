import Verif.Ssr.Page
import Verif.Json.Commands
import Mathlib.Data.List.Nodup
/-!
# C31: requests made while a page is rendered

Model of `ServerState::request` (vertigo-cli/src/serve/server_state.rs) and
`HtmlResponse::process_message` (html/html_response.rs).  The program and the network are
arbitrary: the program sends any messages whenever it is called, responses arrive in any order
and at any time, or never.
-/
namespace Verif.Ssr
open Verif.Codec Verif.Json Verif.Dom

variable {Key Resp Client Doc : Type} [DecidableEq Key]

/-! ## Model -/

/-- What the program sends (message.rs:7-25, without the two that only the server sends). -/
inductive ProgramMessage (Key : Type) where
  | domUpdate (j : JsJson)
  | panic (message : Option String)
  | setTimeoutZero (callback : Nat)
  | fetchRequest (callback : Nat) (request : Key)
  | plainResponse (body : List Char)

/-- message.rs:7-25. -/
inductive LoopMessage (Key Resp : Type) where
  | program (m : ProgramMessage Key)
  | timeoutAndSendResponse
  | fetchResponse (request : Key) (response : Resp)

/-- html_response.rs:22-25. -/
inductive FetchStatus (Resp : Type) where
  | requested (callbacks : List Nat)
  | response (r : Resp)

/-- html_response.rs:28-30. -/
def FetchStatus.isRequested : FetchStatus Resp → Bool
  | .requested _ => true
  | .response _ => false

/-- The program in WebAssembly: called with a callback id and nothing (a timer) or a response,
it sends messages and goes into another state; `none`: it traps or returns a value, and
`wasm_callback` (wasm_instance.rs:173-187) panics. `feed` is the parsing and execution of document
commands (`none`: panic), `build` is `build_response`. -/
structure Program (Key Resp Client Doc : Type) where
  call : Client → Nat → Option Resp → Option (Client × List (ProgramMessage Key))
  feed : Doc → JsJson → Option Doc
  build : Doc → Response

/-- html_response.rs:33-40 (`HtmlResponse`), the channel, and what happens outside: the
requests in the network. The last six fields are a record of what happened, which nothing reads.
`fetch` is a `HashMap`: `keys` are its keys, in any order. -/
structure LoopState (Key Resp Client Doc : Type) where
  client : Client
  doc : Doc
  queue : List (LoopMessage Key Resp) := []
  keys : List Key := []
  fetch : Key → Option (FetchStatus Resp) := fun _ => none
  inFlight : List Key := []
  /-- record: requests given to the network -/
  sent : List Key := []
  /-- record: responses that came from the network -/
  arrived : List (Key × Resp) := []
  /-- record: requests of the program that were taken from the channel -/
  registered : List (Key × Nat) := []
  /-- record: callbacks called with a response -/
  answers : List (Key × Nat × Resp) := []
  /-- record: the document at the start -/
  first : Doc
  /-- record: all messages the program has sent -/
  produced : List (ProgramMessage Key)

inductive Outcome (S : Type) where
  | next (s : S)
  | respond (r : Response)
  /-- the program or the document panics -/
  | crash
  /-- `unreachable!` (html_response.rs:200-202) -/
  | unreachable

/-- `HashMap::insert` for `fetch`. -/
def LoopState.insert (s : LoopState Key Resp Client Doc) (k : Key) (st : FetchStatus Resp) : LoopState Key Resp Client Doc :=
  { s with keys := if k ∈ s.keys then s.keys else s.keys ++ [k], fetch := fun x => if x = k then some st else s.fetch x }

/-- `HashMap::remove` for `fetch`. -/
def LoopState.remove (s : LoopState Key Resp Client Doc) (k : Key) : LoopState Key Resp Client Doc :=
  { s with keys := s.keys.filter (· ≠ k), fetch := fun x => if x = k then none else s.fetch x }

/-- html_response.rs:63-73. -/
def LoopState.waitingRequest (s : LoopState Key Resp Client Doc) : Nat :=
  (s.keys.filter fun k => match s.fetch k with | some st => st.isRequested | none => false).length

/-- The messages of the program go to the end of the channel (wasm_instance.rs:45-139). -/
def LoopState.called (s : LoopState Key Resp Client Doc) (c : Client) (ms : List (ProgramMessage Key)) : LoopState Key Resp Client Doc :=
  { s with client := c, queue := s.queue ++ ms.map .program, produced := s.produced ++ ms }

/-- wasm_instance.rs:189-199: `send_fetch_response`. -/
def LoopState.sendResponse (p : Program Key Resp Client Doc) (s : LoopState Key Resp Client Doc) (k : Key) (cb : Nat) (r : Resp) :
    Option (LoopState Key Resp Client Doc) :=
  match p.call s.client cb (some r) with
  | none => none
  | some (c, ms) => some { s.called c ms with answers := s.answers ++ [(k, cb, r)] }

/-- html_response.rs:194-196. -/
def LoopState.sendAll (p : Program Key Resp Client Doc) (k : Key) (r : Resp) :
    List Nat → LoopState Key Resp Client Doc → Option (LoopState Key Resp Client Doc)
  | [], s => some s
  | cb :: cbs, s =>
      match s.sendResponse p k cb r with
      | none => none
      | some s => sendAll p k r cbs s

/-- html_response.rs:122-214. -/
def LoopState.process (p : Program Key Resp Client Doc) (s : LoopState Key Resp Client Doc) :
    LoopMessage Key Resp → Outcome (LoopState Key Resp Client Doc)
  | .timeoutAndSendResponse => .respond (p.build s.doc)
  | .program (.domUpdate j) =>
      match p.feed s.doc j with
      | none => .crash
      | some doc => .next { s with doc }
  | .program (.panic message) => .respond (.internalError (message.getD "panic message decoding problem").toList)
  | .program (.setTimeoutZero cb) =>
      match p.call s.client cb none with
      | none => .crash
      | some (c, ms) => .next (s.called c ms)
  | .program (.fetchRequest cb k) =>
      let s := { s with registered := s.registered ++ [(k, cb)] }
      match s.fetch k with
      | some (.requested cbs) => .next (s.insert k (.requested (cbs ++ [cb])))
      | some (.response r) =>
          match s.sendResponse p k cb r with
          | none => .crash
          | some s => .next s
      | none => .next ({ s with inFlight := s.inFlight ++ [k], sent := s.sent ++ [k] }.insert k (.requested [cb]))
  | .program (.plainResponse body) => .respond (.plain body)
  | .fetchResponse k r =>
      let state := s.fetch k
      let s := s.remove k
      match state with
      | some (.requested cbs) =>
          match s.sendAll p k r cbs with
          | none => .crash
          | some s => .next (s.insert k (.response r))
      | some (.response _) => .unreachable
      | none => .next (s.insert k (.response r))

/-- A step of server_state.rs:65-95 or of the world around it. -/
inductive LoopState.Next (p : Program Key Resp Client Doc) : LoopState Key Resp Client Doc → LoopState Key Resp Client Doc → Prop where
  /-- the next message is handled -/
  | handle {s s' m q} (hq : s.queue = m :: q) (h : { s with queue := q }.process p m = .next s') : Next p s s'
  /-- html_response.rs:168-176: the response to one of the requests arrives -/
  | arrive {s k} (h : k ∈ s.inFlight) (r : Resp) :
      Next p s { s with inFlight := s.inFlight.erase k, arrived := s.arrived ++ [(k, r)], queue := s.queue ++ [.fetchResponse k r] }
  /-- server_state.rs:56-63: ten seconds have passed -/
  | timeout {s} : Next p s { s with queue := s.queue ++ [.timeoutAndSendResponse] }

/-- server_state.rs:86-88 and 98-99: the response is sent because there is nothing to wait for. -/
def LoopState.Finished (p : Program Key Resp Client Doc) (s : LoopState Key Resp Client Doc) (r : Response) : Prop :=
  s.queue = [] ∧ s.waitingRequest = 0 ∧ r = p.build s.doc

/-- The states while a page is rendered: first the entry function is called (server_state.rs:51). -/
inductive LoopState.Reached (p : Program Key Resp Client Doc) : LoopState Key Resp Client Doc → Prop where
  | start (c : Client) (doc : Doc) (ms : List (ProgramMessage Key)) :
      Reached p { client := c, doc := doc, queue := ms.map .program, first := doc, produced := ms }
  | step {s s'} (h : Reached p s) (h' : s.Next p s') : Reached p s'

/-! ## Specification -/

/-- The callbacks registered for a request, in order. -/
def LoopState.callbacks (s : LoopState Key Resp Client Doc) (k : Key) : List Nat :=
  (s.registered.filter (·.1 = k)).map (·.2)

/-- The calls with a response to a request, in order. -/
def LoopState.calls (s : LoopState Key Resp Client Doc) (k : Key) : List (Nat × Resp) :=
  (s.answers.filter (·.1 = k)).map (·.2)

/-- The request waits: the network has it, or its response is in the channel. -/
def LoopState.Outstanding (s : LoopState Key Resp Client Doc) (k : Key) : Prop :=
  k ∈ s.inFlight ∨ ∃ r, .fetchResponse k r ∈ s.queue

/-! ## Proofs -/

/-- The keys of responses in the channel. -/
def responseKeys (q : List (LoopMessage Key Resp)) : List (Key × Resp) :=
  q.filterMap fun m => match m with | .fetchResponse k r => some (k, r) | _ => none

omit [DecidableEq Key] in
theorem responseKeys_program (ms : List (ProgramMessage Key)) : responseKeys (Resp := Resp) (ms.map .program) = [] := by
  induction ms with
  | nil => rfl
  | cons m ms ih => simp [responseKeys]

omit [DecidableEq Key] in
theorem responseKeys_append (a b : List (LoopMessage Key Resp)) : responseKeys (a ++ b) = responseKeys a ++ responseKeys b := by
  simp [responseKeys]

/-- The state of one request. -/
def Entry (s : LoopState Key Resp Client Doc) (k : Key) : Prop :=
  match s.fetch k with
  | none => k ∉ s.sent ∧ s.callbacks k = [] ∧ s.calls k = []
  | some (.requested cbs) => k ∈ s.sent ∧ s.callbacks k = cbs ∧ s.calls k = [] ∧ k ∈ s.keys ∧
      (k ∈ s.inFlight ∨ k ∈ (responseKeys s.queue).map (·.1))
  | some (.response r) => k ∈ s.sent ∧ s.calls k = (s.callbacks k).map (·, r) ∧ (k, r) ∈ s.arrived ∧
      k ∉ s.inFlight ∧ k ∉ (responseKeys s.queue).map (·.1)

structure LoopInv (s : LoopState Key Resp Client Doc) : Prop where
  sent : s.sent.Nodup
  entry : ∀ k, Entry s k
  flight : (s.inFlight ++ (responseKeys s.queue).map (·.1)).Nodup
  known : ∀ k, k ∈ s.inFlight ∨ k ∈ (responseKeys s.queue).map (·.1) → k ∈ s.sent
  arrived : ∀ e ∈ responseKeys s.queue, e ∈ s.arrived
  arrivedSent : ∀ e ∈ s.arrived, e.1 ∈ s.sent ∧ e.1 ∉ s.inFlight
  once : (s.arrived.map (·.1)).Nodup

theorem LoopInv.congr {s s' : LoopState Key Resp Client Doc} (h : LoopInv s) (h1 : s'.fetch = s.fetch) (h2 : s'.keys = s.keys)
    (h3 : s'.inFlight = s.inFlight) (h4 : s'.sent = s.sent) (h5 : s'.arrived = s.arrived) (h6 : s'.registered = s.registered)
    (h7 : s'.answers = s.answers) (h8 : responseKeys s'.queue = responseKeys s.queue) : LoopInv s' := by
  have he : ∀ k, Entry s' k ↔ Entry s k := by
    intro k
    unfold Entry
    simp only [LoopState.callbacks, LoopState.calls, h1, h2, h3, h4, h5, h6, h7, h8]
  constructor
  · rw [h4]; exact h.sent
  · intro k; rw [he]; exact h.entry k
  · rw [h3, h8]; exact h.flight
  · rw [h3, h8, h4]; exact h.known
  · rw [h8, h5]; exact h.arrived
  · rw [h5, h4, h3]; exact h.arrivedSent
  · rw [h5]; exact h.once

omit [DecidableEq Key] in
theorem sendAll_eq {p : Program Key Resp Client Doc} {k : Key} {r : Resp} : ∀ {cbs : List Nat} {s s' : LoopState Key Resp Client Doc},
    s.sendAll p k r cbs = some s' → ∃ (c : Client) (ms : List (ProgramMessage Key)), s' = { s with
      client := c, queue := s.queue ++ ms.map .program, produced := s.produced ++ ms,
      answers := s.answers ++ cbs.map fun cb => (k, cb, r) }
  | [], s, s', h => by
      cases h
      exact ⟨s.client, [], by simp⟩
  | cb :: cbs, s, s', h => by
      simp only [LoopState.sendAll, LoopState.sendResponse] at h
      cases hc : p.call s.client cb (some r) with
      | none => rw [hc] at h; cases h
      | some x =>
        obtain ⟨c, ms⟩ := x
        rw [hc] at h
        obtain ⟨c', ms', rfl⟩ := sendAll_eq h
        exact ⟨c', ms ++ ms', by simp [LoopState.called]⟩

theorem inv_start (c : Client) (doc : Doc) (ms : List (ProgramMessage Key)) :
    LoopInv (Resp := Resp) { client := c, doc := doc, queue := ms.map .program, first := doc, produced := ms } := by
  constructor <;> simp [responseKeys_program, Entry, LoopState.callbacks, LoopState.calls]

theorem inv_arrive {s : LoopState Key Resp Client Doc} (hi : LoopInv s) {k : Key} (h : k ∈ s.inFlight) (r : Resp) :
    LoopInv { s with inFlight := s.inFlight.erase k, arrived := s.arrived ++ [(k, r)], queue := s.queue ++ [.fetchResponse k r] } := by
  have hn : s.inFlight.Nodup := (List.nodup_append.mp hi.flight).1
  have hrk : responseKeys (s.queue ++ [.fetchResponse k r]) = responseKeys s.queue ++ [(k, r)] := responseKeys_append _ _
  have hk : k ∉ (responseKeys s.queue).map (·.1) := fun h' => (List.nodup_append.mp hi.flight).2.2 k h k h' rfl
  have hke : k ∉ s.inFlight.erase k := fun h' => (List.Nodup.mem_erase_iff hn).mp h' |>.1 rfl
  constructor
  · exact hi.sent
  · intro x
    have he := hi.entry x
    by_cases hx : x = k
    · subst hx
      unfold Entry at he ⊢
      cases hf : s.fetch x with
      | none =>
        simp only [hf] at he
        exact absurd (hi.known x (.inl h)) he.1
      | some st =>
        cases st with
        | requested cbs =>
          simp only [hf, hrk] at he ⊢
          exact ⟨he.1, he.2.1, he.2.2.1, he.2.2.2.1, .inr (by simp)⟩
        | response r' =>
          simp only [hf] at he
          exact absurd h he.2.2.2.1
    · unfold Entry at he ⊢
      have h1 : x ∈ s.inFlight.erase k ↔ x ∈ s.inFlight := List.mem_erase_of_ne hx
      have h2 : x ∈ (responseKeys (s.queue ++ [LoopMessage.fetchResponse k r])).map (·.1) ↔ x ∈ (responseKeys s.queue).map (·.1) := by
        rw [hrk]; simp [hx]
      cases hf : s.fetch x with
      | none => simp only [hf] at he ⊢; exact he
      | some st =>
        cases st with
        | requested cbs =>
          simp only [hf, h1, h2] at he ⊢; exact he
        | response r' =>
          simp only [hf, h1, h2] at he ⊢
          exact ⟨he.1, he.2.1, List.mem_append_left _ he.2.2.1, he.2.2.2⟩
  · show (s.inFlight.erase k ++ _).Nodup
    rw [hrk, List.map_append, ← List.append_assoc]
    have := hi.flight
    rw [List.nodup_append] at this
    refine List.nodup_append.mpr ⟨List.nodup_append.mpr ⟨hn.erase k, this.2.1, fun a ha b hb => ?_⟩, by simp, ?_⟩
    · exact this.2.2 a (List.mem_of_mem_erase ha) b hb
    · intro a ha b hb
      obtain rfl : b = k := by simpa using hb
      rintro rfl
      rcases List.mem_append.mp ha with ha | ha
      · exact hke ha
      · exact hk ha
  · intro x hx
    show x ∈ s.sent
    rw [hrk] at hx
    rcases hx with hx | hx
    · exact hi.known x (.inl (List.mem_of_mem_erase hx))
    · rw [List.map_append, List.mem_append] at hx
      rcases hx with hx | hx
      · exact hi.known x (.inr hx)
      · obtain rfl : x = k := by simpa using hx
        exact hi.known x (.inl h)
  · intro e he
    rw [hrk] at he
    rcases List.mem_append.mp he with he | he
    · exact List.mem_append_left _ (hi.arrived e he)
    · exact List.mem_append_right _ he
  · intro e he
    rcases List.mem_append.mp he with he | he
    · exact ⟨(hi.arrivedSent e he).1, fun h' => (hi.arrivedSent e he).2 (List.mem_of_mem_erase h')⟩
    · obtain rfl := List.mem_singleton.mp he
      exact ⟨hi.known k (.inl h), hke⟩
  · show ((s.arrived ++ [(k, r)]).map (·.1)).Nodup
    rw [List.map_append, List.nodup_append]
    refine ⟨hi.once, by simp, ?_⟩
    intro a ha b hb
    obtain rfl : b = k := by simpa using hb
    rintro rfl
    obtain ⟨e, he, hek⟩ := List.mem_map.mp ha
    exact (hi.arrivedSent e he).2 (by rw [hek]; exact h)

theorem callbacks_add (s : LoopState Key Resp Client Doc) (k x : Key) (cb : Nat) :
    { s with registered := s.registered ++ [(k, cb)] }.callbacks x = s.callbacks x ++ (if k = x then [cb] else []) := by
  simp only [LoopState.callbacks, List.filter_append, List.map_append]
  congr 1
  by_cases h : k = x <;> simp [h]

theorem calls_add (s : LoopState Key Resp Client Doc) (k x : Key) (cbs : List Nat) (r : Resp) :
    { s with answers := s.answers ++ cbs.map fun cb => (k, cb, r) }.calls x = s.calls x ++ (if k = x then cbs.map (·, r) else []) := by
  simp only [LoopState.calls, List.filter_append, List.map_append]
  congr 1
  by_cases h : k = x
  · simp [h]
    induction cbs with
    | nil => rfl
    | cons c cbs ih => simpa using ih
  · simp [h]

/-- A request of the program. -/
theorem inv_request {p : Program Key Resp Client Doc} {s s' : LoopState Key Resp Client Doc} (hi : LoopInv s) {cb : Nat} {k : Key}
    (h : s.process p (.program (.fetchRequest cb k)) = .next s') : LoopInv s' := by
  have hk := hi.entry k
  unfold Entry at hk
  simp only [LoopState.process] at h
  cases hf : s.fetch k with
  | none =>
    simp only [hf, Outcome.next.injEq] at h hk
    subst h
    have hns : k ∉ s.inFlight ∧ k ∉ (responseKeys s.queue).map (·.1) :=
      ⟨fun h => hk.1 (hi.known k (.inl h)), fun h => hk.1 (hi.known k (.inr h))⟩
    constructor
    · show (s.sent ++ [k]).Nodup
      rw [List.nodup_append]
      exact ⟨hi.sent, by simp, by intro a ha b hb; obtain rfl : b = k := by simpa using hb
                                  rintro rfl; exact hk.1 ha⟩
    · intro x
      have he := hi.entry x
      have hcb := callbacks_add s k x cb
      unfold Entry at he ⊢
      by_cases hx : x = k
      · subst hx
        simp only [LoopState.insert, if_true]
        refine ⟨by simp, ?_, hk.2.2, ?_, .inl (by simp)⟩
        · exact hcb.trans (by simp [hk.2.1])
        · split <;> simp_all
      · have hx' : ¬ k = x := fun h => hx h.symm
        simp only [hx', if_false, List.append_nil] at hcb
        have hcb' : (LoopState.insert { s with inFlight := s.inFlight ++ [k], sent := s.sent ++ [k], registered := s.registered ++ [(k, cb)] }
          k (FetchStatus.requested [cb])).callbacks x = s.callbacks x := hcb
        have hm : x ∈ (if k ∈ s.keys then s.keys else s.keys ++ [k]) ↔ x ∈ s.keys := by split <;> simp [hx]
        cases hfx : s.fetch x with
        | none =>
          simp only [hfx, LoopState.insert, if_neg hx] at he ⊢
          exact ⟨by simp [hx, he.1], hcb'.trans he.2.1, he.2.2⟩
        | some st =>
          cases st with
          | requested cbs =>
            simp only [hfx, LoopState.insert, if_neg hx] at he ⊢
            exact ⟨by simp [he.1], hcb'.trans he.2.1, he.2.2.1, hm.mpr he.2.2.2.1, by simpa [hx] using he.2.2.2.2⟩
          | response r =>
            simp only [hfx, LoopState.insert, if_neg hx] at he ⊢
            refine ⟨by simp [he.1], ?_, he.2.2.1, by simp [hx, he.2.2.2.1], he.2.2.2.2⟩
            refine Eq.trans he.2.1 ?_
            exact congrArg (List.map fun x => (x, r)) hcb'.symm
    · show ((s.inFlight ++ [k]) ++ _).Nodup
      have := List.nodup_append.mp hi.flight
      rw [List.append_assoc, List.singleton_append]
      refine List.nodup_append.mpr ⟨this.1, List.nodup_cons.mpr ⟨hns.2, this.2.1⟩, ?_⟩
      intro a ha b hb
      rcases List.mem_cons.mp hb with rfl | hb
      · rintro rfl; exact hns.1 ha
      · exact this.2.2 a ha b hb
    · intro x hx
      show x ∈ s.sent ++ [k]
      rcases hx with hx | hx
      · rcases List.mem_append.mp hx with hx | hx
        · exact List.mem_append_left _ (hi.known x (.inl hx))
        · exact List.mem_append_right _ hx
      · exact List.mem_append_left _ (hi.known x (.inr hx))
    · exact hi.arrived
    · intro e he
      have := hi.arrivedSent e he
      refine ⟨List.mem_append_left _ this.1, fun h => ?_⟩
      rcases List.mem_append.mp h with h | h
      · exact this.2 h
      · obtain h : e.1 = k := by simpa using h
        exact hk.1 (h ▸ this.1)
    · exact hi.once
  | some st =>
    cases st with
    | requested cbs =>
      simp only [hf, Outcome.next.injEq] at h hk
      subst h
      constructor
      · exact hi.sent
      · intro x
        have he := hi.entry x
        have hcb := callbacks_add s k x cb
        unfold Entry at he ⊢
        have hm : ∀ x, x ∈ (if k ∈ s.keys then s.keys else s.keys ++ [k]) ↔ x ∈ s.keys := by
          intro x; rw [if_pos hk.2.2.2.1]
        by_cases hx : x = k
        · subst hx
          simp only [LoopState.insert, if_true]
          exact ⟨hk.1, hcb.trans (by simp [hk.2.1]), hk.2.2.1, (hm x).mpr hk.2.2.2.1, hk.2.2.2.2⟩
        · have hx' : ¬ k = x := fun h => hx h.symm
          simp only [hx', if_false, List.append_nil] at hcb
          cases hfx : s.fetch x with
          | none =>
            simp only [hfx, LoopState.insert, if_neg hx] at he ⊢
            exact ⟨he.1, hcb.trans he.2.1, he.2.2⟩
          | some st =>
            cases st with
            | requested cbs =>
              simp only [hfx, LoopState.insert, if_neg hx] at he ⊢
              exact ⟨he.1, hcb.trans he.2.1, he.2.2.1, (hm x).mpr he.2.2.2.1, he.2.2.2.2⟩
            | response r =>
              simp only [hfx, LoopState.insert, if_neg hx] at he ⊢
              exact ⟨he.1, he.2.1.trans (congrArg (List.map fun x => (x, r)) hcb.symm), he.2.2⟩
      · exact hi.flight
      · exact hi.known
      · exact hi.arrived
      · exact hi.arrivedSent
      · exact hi.once
    | response r =>
      simp only [hf, LoopState.sendResponse] at h hk
      cases hc : p.call s.client cb (some r) with
      | none => simp [hc] at h
      | some c =>
        obtain ⟨c, ms⟩ := c
        simp only [hc, Outcome.next.injEq] at h
        subst h
        have hrk : responseKeys (s.queue ++ ms.map LoopMessage.program) = responseKeys s.queue := by
          rw [responseKeys_append, responseKeys_program, List.append_nil]
        constructor
        · exact hi.sent
        · intro x
          have he := hi.entry x
          have hcb := callbacks_add s k x cb
          have hcl := calls_add s k x [cb] r
          unfold Entry at he ⊢
          simp only [LoopState.called, hrk]
          by_cases hx : x = k
          · subst hx
            simp only [hf]
            refine ⟨hk.1, ?_, hk.2.2⟩
            refine Eq.trans hcl ?_
            refine Eq.trans ?_ (congrArg (List.map fun x => (x, r)) hcb.symm)
            simp [hk.2.1]
          · have hx' : ¬ k = x := fun h => hx h.symm
            simp only [hx', if_false, List.append_nil] at hcb hcl
            cases hfx : s.fetch x with
            | none =>
              simp only [hfx] at he ⊢
              exact ⟨he.1, hcb.trans he.2.1, hcl.trans he.2.2⟩
            | some st =>
              cases st with
              | requested cbs =>
                simp only [hfx] at he ⊢
                exact ⟨he.1, hcb.trans he.2.1, hcl.trans he.2.2.1, he.2.2.2⟩
              | response r =>
                simp only [hfx] at he ⊢
                exact ⟨he.1, hcl.trans (he.2.1.trans (congrArg (List.map fun x => (x, r)) hcb.symm)), he.2.2⟩
        · simp only [LoopState.called, hrk]; exact hi.flight
        · simp only [LoopState.called, hrk]; exact hi.known
        · simp only [LoopState.called, hrk]; exact hi.arrived
        · exact hi.arrivedSent
        · exact hi.once

/-- A response from the network. -/
theorem inv_response {p : Program Key Resp Client Doc} {s s' : LoopState Key Resp Client Doc} (hi : LoopInv s) {k : Key} {r : Resp}
    {q : List (LoopMessage Key Resp)} (hq : s.queue = .fetchResponse k r :: q)
    (h : { s with queue := q }.process p (.fetchResponse k r) = .next s') : LoopInv s' := by
  have hk := hi.entry k
  have hrs : responseKeys s.queue = (k, r) :: responseKeys q := by rw [hq]; rfl
  have hka : k ∈ (responseKeys s.queue).map (·.1) := by rw [hrs]; simp
  have hfl := List.nodup_append.mp hi.flight
  have hkq : k ∉ (responseKeys q).map (·.1) := by
    have := hfl.2.1
    rw [hrs, List.map_cons, List.nodup_cons] at this
    exact this.1
  have hkf : k ∉ s.inFlight := fun h => hfl.2.2 k h k hka rfl
  have har : (k, r) ∈ s.arrived := hi.arrived _ (by rw [hrs]; simp)
  unfold Entry at hk
  simp only [LoopState.process] at h
  cases hf : s.fetch k with
  | none =>
    simp only [hf] at hk
    exact absurd (hi.known k (.inr hka)) hk.1
  | some st =>
    cases st with
    | response r' =>
      simp only [hf] at hk
      exact absurd hka hk.2.2.2.2
    | requested cbs =>
      simp only [hf] at h hk
      cases hs : ({ s with queue := q }.remove k).sendAll p k r cbs with
      | none => simp [hs] at h
      | some s1 =>
        simp only [hs, Outcome.next.injEq] at h
        obtain ⟨c, ms, rfl⟩ := sendAll_eq hs
        subst h
        have hrk : responseKeys (q ++ ms.map LoopMessage.program) = responseKeys q := by
          rw [responseKeys_append, responseKeys_program, List.append_nil]
        have hsub : ∀ x, x ∈ (responseKeys q).map (·.1) → x ∈ (responseKeys s.queue).map (·.1) := by
          intro x hx; rw [hrs]; exact List.mem_cons_of_mem _ hx
        constructor
        · exact hi.sent
        · intro x
          have he := hi.entry x
          have hcl := calls_add s k x cbs r
          unfold Entry at he ⊢
          simp only [LoopState.insert, LoopState.remove, hrk]
          by_cases hx : x = k
          · subst hx
            simp only [if_true]
            refine ⟨hk.1, ?_, har, hkf, hkq⟩
            refine Eq.trans hcl ?_
            refine Eq.trans ?_ (congrArg (List.map fun x => (x, r)) hk.2.1.symm)
            simp [hk.2.2.1]
          · have hx' : ¬ k = x := fun h => hx h.symm
            simp only [hx', if_false, List.append_nil] at hcl
            have h2 : x ∈ (responseKeys s.queue).map (·.1) ↔ x ∈ (responseKeys q).map (·.1) := by
              rw [hrs]; simp [hx]
            have hm : x ∈ (if k ∈ List.filter (fun x => decide (x ≠ k)) s.keys then List.filter (fun x => decide (x ≠ k)) s.keys
                else List.filter (fun x => decide (x ≠ k)) s.keys ++ [k]) ↔ x ∈ s.keys := by
              split <;> simp [hx]
            cases hfx : s.fetch x with
            | none =>
              simp only [hfx, if_neg hx] at he ⊢
              exact ⟨he.1, he.2.1, hcl.trans he.2.2⟩
            | some st =>
              cases st with
              | requested cbs =>
                simp only [hfx, if_neg hx, h2] at he ⊢
                exact ⟨he.1, he.2.1, hcl.trans he.2.2.1, hm.mpr he.2.2.2.1, he.2.2.2.2⟩
              | response r =>
                simp only [hfx, if_neg hx, h2] at he ⊢
                exact ⟨he.1, hcl.trans he.2.1, he.2.2⟩
        · simp only [LoopState.insert, LoopState.remove, hrk]
          refine List.nodup_append.mpr ⟨hfl.1, ?_, fun a ha b hb => hfl.2.2 a ha b (hsub b hb)⟩
          have := hfl.2.1
          rw [hrs, List.map_cons, List.nodup_cons] at this
          exact this.2
        · simp only [LoopState.insert, LoopState.remove, hrk]
          exact fun x hx => hi.known x (hx.imp_right (hsub x))
        · simp only [LoopState.insert, LoopState.remove, hrk]
          exact fun e he => hi.arrived e (by rw [hrs]; exact List.mem_cons_of_mem _ he)
        · exact hi.arrivedSent
        · exact hi.once

theorem inv_next {p : Program Key Resp Client Doc} {s s' : LoopState Key Resp Client Doc} (hi : LoopInv s) (h : s.Next p s') : LoopInv s' := by
  cases h with
  | arrive h r => exact inv_arrive hi h r
  | timeout => exact hi.congr rfl rfl rfl rfl rfl rfl rfl (by rw [responseKeys_append]; simp [responseKeys])
  | @handle _ m q hq h =>
    have hpop : ∀ m, m = LoopMessage.timeoutAndSendResponse ∨ (∃ pm, m = .program pm) → s.queue = m :: q → LoopInv { s with queue := q } := by
      rintro m (rfl | ⟨pm, rfl⟩) hq <;>
        exact hi.congr rfl rfl rfl rfl rfl rfl rfl (by rw [hq]; rfl)
    have hprog : ∀ (ms : List (ProgramMessage Key)), responseKeys (q ++ ms.map (LoopMessage.program (Resp := Resp))) = responseKeys q := by
      intro ms; rw [responseKeys_append, responseKeys_program, List.append_nil]
    cases m with
    | timeoutAndSendResponse => cases h
    | fetchResponse k r => exact inv_response hi hq h
    | program pm =>
      have hi := hpop _ (.inr ⟨pm, rfl⟩) hq
      cases pm with
      | panic m => cases h
      | plainResponse b => cases h
      | fetchRequest cb k => exact inv_request hi h
      | domUpdate j =>
        simp only [LoopState.process] at h
        split at h
        · cases h
        · cases h
          exact hi.congr rfl rfl rfl rfl rfl rfl rfl rfl
      | setTimeoutZero cb =>
        simp only [LoopState.process] at h
        split at h
        · cases h
        · rename_i c ms _
          cases h
          exact hi.congr rfl rfl rfl rfl rfl rfl rfl (hprog ms)

theorem inv_reached {p : Program Key Resp Client Doc} {s : LoopState Key Resp Client Doc} (h : s.Reached p) : LoopInv s := by
  induction h with
  | start c doc ms => exact inv_start c doc ms
  | step _ h ih => exact inv_next ih h

omit [DecidableEq Key] in
theorem mem_responseKeys {q : List (LoopMessage Key Resp)} {k : Key} :
    k ∈ (responseKeys q).map (·.1) ↔ ∃ r, LoopMessage.fetchResponse k r ∈ q := by
  simp only [responseKeys, List.mem_map, List.mem_filterMap]
  constructor
  · rintro ⟨⟨k', r⟩, ⟨m, hm, h⟩, rfl⟩
    cases m with
    | fetchResponse k r =>
      cases h; exact ⟨r, hm⟩
    | _ => cases h
  · rintro ⟨r, h⟩
    exact ⟨(k, r), ⟨_, h, rfl⟩, rfl⟩

/-! ## Theorems -/

/-- **C31, once.** Whatever the program does and however responses arrive, no request is given to the network
twice. -/
theorem C31_sent_once_partial {p : Program Key Resp Client Doc} {s : LoopState Key Resp Client Doc} (h : s.Reached p) : s.sent.Nodup :=
  (inv_reached h).sent

/-- **C31, answers.** While a request is outstanding no callback registered for it is called; from then on
all of them have been called, each exactly once, in the order of registration, with the response
that came from the network. -/
theorem C31_answered {p : Program Key Resp Client Doc} {s : LoopState Key Resp Client Doc} (h : s.Reached p) (k : Key) :
    (s.Outstanding k → s.calls k = []) ∧
    (¬ s.Outstanding k → k ∈ s.sent → ∃ r, (k, r) ∈ s.arrived ∧ s.calls k = (s.callbacks k).map (·, r)) ∧
    (k ∉ s.sent → s.callbacks k = [] ∧ s.calls k = []) := by
  have hi := inv_reached h
  have he := hi.entry k
  unfold Entry at he
  simp only [mem_responseKeys] at he
  unfold LoopState.Outstanding
  cases hf : s.fetch k with
  | none =>
    simp only [hf] at he
    exact ⟨fun _ => he.2.2, fun _ h => absurd h he.1, fun _ => he.2⟩
  | some st =>
    cases st with
    | requested cbs =>
      simp only [hf] at he
      exact ⟨fun _ => he.2.2.1, fun h => absurd he.2.2.2.2 h, fun h => absurd he.1 h⟩
    | response r =>
      simp only [hf] at he
      exact ⟨fun h => absurd h (by rintro (h | h); exact he.2.2.2.1 h; exact he.2.2.2.2 h),
        fun _ _ => ⟨r, he.2.2.1, he.2.1⟩, fun h => absurd he.1 h⟩

/-- **C31, responses.** A request has at most one response, so the previous theorem determines it. -/
theorem C31_one_response {p : Program Key Resp Client Doc} {s : LoopState Key Resp Client Doc} (h : s.Reached p) {k : Key} {r r' : Resp}
    (h1 : (k, r) ∈ s.arrived) (h2 : (k, r') ∈ s.arrived) : r = r' := by
  have := (inv_reached h).once
  generalize s.arrived = l at *
  induction l with
  | nil => cases h1
  | cons e l ih =>
    rw [List.map_cons, List.nodup_cons] at this
    rcases List.mem_cons.mp h1 with h3 | h3 <;> rcases List.mem_cons.mp h2 with h4 | h4
    · have := h3.trans h4.symm; cases this; rfl
    · subst h3; exact absurd (List.mem_map_of_mem (f := (·.1)) h4) this.1
    · subst h4; exact absurd (List.mem_map_of_mem (f := (·.1)) h3) this.1
    · exact ih h3 h4 this.2

/-- **C31, the end.** When the page is sent because there is nothing to wait for, the network
has answered every request, and every callback has been called. -/
theorem C31_finished {p : Program Key Resp Client Doc} {s : LoopState Key Resp Client Doc} (h : s.Reached p) {r : Response}
    (hf : s.Finished p r) :
    s.inFlight = [] ∧ s.queue = [] ∧ r = p.build s.doc ∧
    ∀ k, s.callbacks k ≠ [] → ∃ r, (k, r) ∈ s.arrived ∧ s.calls k = (s.callbacks k).map (·, r) := by
  obtain ⟨hq, hw, hr⟩ := hf
  have hi := inv_reached h
  have hno : ∀ k cbs, s.fetch k ≠ some (.requested cbs) := by
    intro k cbs hf
    have he := hi.entry k
    unfold Entry at he
    simp only [hf] at he
    have := List.eq_nil_of_length_eq_zero hw
    have hm : k ∈ s.keys.filter (fun k => match s.fetch k with | some st => st.isRequested | none => false) :=
      List.mem_filter.mpr ⟨he.2.2.2.1, by rw [hf]; rfl⟩
    rw [this] at hm
    cases hm
  have hnf : s.inFlight = [] := by
    rw [List.eq_nil_iff_forall_not_mem]
    intro k hk
    have he := hi.entry k
    unfold Entry at he
    cases hf : s.fetch k with
    | none => simp only [hf] at he; exact he.1 (hi.known k (.inl hk))
    | some st =>
      cases st with
      | requested cbs => exact hno k cbs hf
      | response r => simp only [hf] at he; exact he.2.2.2.1 hk
  refine ⟨hnf, hq, hr, fun k hk => ?_⟩
  have := C31_answered h k
  have hout : ¬ s.Outstanding k := by
    rintro (h | ⟨r, h⟩)
    · rw [hnf] at h; cases h
    · rw [hq] at h; cases h
  by_cases hs : k ∈ s.sent
  · exact this.2.1 hout hs
  · exact absurd (this.2.2 hs).1 hk

/-- **C31, no dead end.** The `unreachable!` is never reached. -/
theorem C31_reachable {p : Program Key Resp Client Doc} {s : LoopState Key Resp Client Doc} (h : s.Reached p)
    {m : LoopMessage Key Resp} {q : List (LoopMessage Key Resp)} (hq : s.queue = m :: q) :
    { s with queue := q }.process p m ≠ .unreachable := by
  intro hu
  cases m with
  | timeoutAndSendResponse => cases hu
  | program pm =>
    cases pm with
    | panic m => cases hu
    | plainResponse b => cases hu
    | domUpdate j => simp only [LoopState.process] at hu; split at hu <;> cases hu
    | setTimeoutZero cb => simp only [LoopState.process] at hu; split at hu <;> cases hu
    | fetchRequest cb k =>
      simp only [LoopState.process] at hu
      split at hu
      · cases hu
      · split at hu <;> cases hu
      · cases hu
  | fetchResponse k r =>
    simp only [LoopState.process] at hu
    have he := (inv_reached h).entry k
    unfold Entry at he
    cases hf : s.fetch k with
    | none => simp only [hf] at hu; cases hu
    | some st =>
      cases st with
      | requested cbs =>
        simp only [hf] at hu
        split at hu <;> cases hu
      | response r' =>
        simp only [hf] at he
        refine he.2.2.2.2 ?_
        rw [hq]; simp [responseKeys]

/-! ## What the page contains -/

/-- The document commands among messages of the program. -/
def domUpdates : List (ProgramMessage Key) → List JsJson
  | [] => []
  | .domUpdate j :: l => j :: domUpdates l
  | _ :: l => domUpdates l

/-- All of them fed to the document, one after the other. -/
def feedAll (feed : Doc → JsJson → Option Doc) : Doc → List JsJson → Option Doc
  | d, [] => some d
  | d, j :: l => (feed d j).bind fun d => feedAll feed d l

/-- The messages of the program that wait in the channel. -/
def waitingMessages (q : List (LoopMessage Key Resp)) : List (ProgramMessage Key) :=
  q.filterMap fun m => match m with | .program m => some m | _ => none

omit [DecidableEq Key] in
theorem domUpdates_append (a b : List (ProgramMessage Key)) : domUpdates (a ++ b) = domUpdates a ++ domUpdates b := by
  induction a with
  | nil => rfl
  | cons m a ih => cases m <;> simp [domUpdates, ih]

theorem feedAll_append (feed : Doc → JsJson → Option Doc) (d : Doc) (a b : List JsJson) :
    feedAll feed d (a ++ b) = (feedAll feed d a).bind fun d => feedAll feed d b := by
  induction a generalizing d with
  | nil => rfl
  | cons j a ih =>
    simp only [List.cons_append, feedAll]
    cases feed d j with
    | none => rfl
    | some d => exact ih d

omit [DecidableEq Key] in
theorem waiting_append (a b : List (LoopMessage Key Resp)) : waitingMessages (a ++ b) = waitingMessages a ++ waitingMessages b := by
  simp [waitingMessages]

omit [DecidableEq Key] in
theorem waiting_program (ms : List (ProgramMessage Key)) : waitingMessages (Resp := Resp) (ms.map .program) = ms := by
  induction ms with
  | nil => rfl
  | cons m ms ih => simp [waitingMessages]

/-- The messages that were sent are those that were handled and those that wait, in this order; the
commands among the handled ones have been given to the document. -/
def DocInv (p : Program Key Resp Client Doc) (s : LoopState Key Resp Client Doc) : Prop :=
  ∃ handled, s.produced = handled ++ waitingMessages s.queue ∧
    feedAll p.feed s.first (domUpdates handled) = some s.doc ∧ (∀ b, .plainResponse b ∉ handled) ∧ ∀ b, .panic b ∉ handled

theorem doc_reached {p : Program Key Resp Client Doc} {s : LoopState Key Resp Client Doc} (h : s.Reached p) : DocInv p s := by
  induction h with
  | start c doc ms => exact ⟨[], (waiting_program ms).symm, rfl, by simp, by simp⟩
  | @step s s' _ h ih =>
    obtain ⟨handled, h1, h2, h3⟩ := ih
    cases h with
    | arrive hk r =>
      refine ⟨handled, ?_, h2, h3⟩
      show s.produced = _ ++ waitingMessages (s.queue ++ [_])
      rw [waiting_append, h1]
      simp [waitingMessages]
    | timeout =>
      refine ⟨handled, ?_, h2, h3⟩
      show s.produced = _ ++ waitingMessages (s.queue ++ [_])
      rw [waiting_append, h1]
      simp [waitingMessages]
    | @handle _ m q hq h =>
      rw [hq] at h1
      cases m with
      | timeoutAndSendResponse => cases h
      | fetchResponse k r =>
        have h1 : s.produced = handled ++ waitingMessages q := h1
        simp only [LoopState.process] at h
        split at h
        · split at h
          · cases h
          · rename_i hs
            obtain ⟨c, ms, rfl⟩ := sendAll_eq hs
            cases h
            refine ⟨handled, ?_, h2, h3⟩
            show s.produced ++ ms = handled ++ waitingMessages (q ++ ms.map .program)
            rw [waiting_append, waiting_program, h1, List.append_assoc]
        · cases h
        · cases h
          exact ⟨handled, h1, h2, h3⟩
      | program pm =>
        have h1 : s.produced = handled ++ [pm] ++ waitingMessages q := by
          rw [h1, List.append_assoc]; rfl
        have hdone : (∀ b, pm ≠ .plainResponse b) → (∀ b, pm ≠ .panic b) →
            (∀ b, .plainResponse b ∉ handled ++ [pm]) ∧ ∀ b, .panic b ∉ handled ++ [pm] := by
          intro ha hb
          refine ⟨fun b hm => ?_, fun b hm => ?_⟩
          · rcases List.mem_append.1 hm with hm | hm
            · exact h3.1 b hm
            · exact ha b (List.mem_singleton.1 hm).symm
          · rcases List.mem_append.1 hm with hm | hm
            · exact h3.2 b hm
            · exact hb b (List.mem_singleton.1 hm).symm
        cases pm with
        | panic m => cases h
        | plainResponse b => cases h
        | domUpdate j =>
          simp only [LoopState.process] at h
          split at h
          · cases h
          · rename_i d hd
            cases h
            refine ⟨handled ++ [ProgramMessage.domUpdate j], h1, ?_, hdone (by simp) (by simp)⟩
            show feedAll p.feed s.first _ = some d
            rw [domUpdates_append, feedAll_append, h2]
            simp only [domUpdates, feedAll, Option.bind_some]
            rw [show p.feed s.doc j = some d from hd]
            rfl
        | setTimeoutZero cb =>
          simp only [LoopState.process] at h
          split at h
          · cases h
          · rename_i c ms _
            cases h
            refine ⟨handled ++ [ProgramMessage.setTimeoutZero cb], ?_, ?_, hdone (by simp) (by simp)⟩
            · show s.produced ++ ms = _ ++ waitingMessages (q ++ ms.map .program)
              rw [waiting_append, waiting_program, h1, List.append_assoc]
            · show feedAll p.feed s.first _ = some s.doc
              rw [domUpdates_append]; simpa [domUpdates] using h2
        | fetchRequest cb k =>
          simp only [LoopState.process] at h
          have hh : feedAll p.feed s.first (domUpdates (handled ++ [ProgramMessage.fetchRequest cb k])) = some s.doc := by
            rw [domUpdates_append]; simpa [domUpdates] using h2
          split at h
          · cases h
            exact ⟨handled ++ [ProgramMessage.fetchRequest cb k], h1, hh, hdone (by simp) (by simp)⟩
          · split at h
            · cases h
            · rename_i hs
              cases h
              simp only [LoopState.sendResponse] at hs
              split at hs
              · cases hs
              · rename_i c ms _
                cases hs
                refine ⟨handled ++ [ProgramMessage.fetchRequest cb k], ?_, hh, hdone (by simp) (by simp)⟩
                show s.produced ++ ms = _ ++ waitingMessages (q ++ ms.map .program)
                rw [waiting_append, waiting_program, h1, List.append_assoc]
          · cases h
            exact ⟨handled ++ [ProgramMessage.fetchRequest cb k], h1, hh, hdone (by simp) (by simp)⟩

/-- **C31, the page.** A page sent because there is nothing to wait for is built from the document that results from
all document commands the program has ever sent, in the order in which it has sent them; and the program has not asked
for a plain response. -/
theorem C31_document {p : Program Key Resp Client Doc} {s : LoopState Key Resp Client Doc} (h : s.Reached p) {r : Response}
    (hf : s.Finished p r) :
    ∃ d, feedAll p.feed s.first (domUpdates s.produced) = some d ∧ r = p.build d ∧ ∀ b, .plainResponse b ∉ s.produced := by
  obtain ⟨handled, h1, h2, h3⟩ := doc_reached h
  obtain ⟨hq, -, hr⟩ := hf
  rw [hq] at h1
  have h1 : s.produced = handled := h1.trans (List.append_nil _)
  rw [h1]
  exact ⟨s.doc, h2, hr, h3.1⟩

/-- **C31, other answers.** A message ends the page early in three cases only. If the program has sent a plain response, its
text is the answer, as plain text. If it has reported a panic, the answer is an error. If the time is up, the page is
built from the document commands handled so far, which are the first ones the program has sent. -/
theorem C31_answers {p : Program Key Resp Client Doc} {s : LoopState Key Resp Client Doc} (h : s.Reached p)
    {m : LoopMessage Key Resp} {q : List (LoopMessage Key Resp)} (hq : s.queue = m :: q) {r : Response}
    (hr : { s with queue := q }.process p m = .respond r) :
    (∃ b, m = .program (.plainResponse b) ∧ r = { status := 200, contentType := .plain, body := b }) ∨
    (∃ text, m = .program (.panic text) ∧
      r = { status := 500, contentType := .plain, body := (text.getD "panic message decoding problem").toList }) ∨
    (m = .timeoutAndSendResponse ∧ ∃ some_ rest d, domUpdates s.produced = some_ ++ rest ∧
      feedAll p.feed s.first some_ = some d ∧ r = p.build d) := by
  cases m with
  | timeoutAndSendResponse =>
    obtain ⟨handled, h1, h2, -⟩ := doc_reached h
    cases hr
    exact .inr (.inr ⟨rfl, domUpdates handled, domUpdates (waitingMessages s.queue), s.doc,
      by rw [h1, domUpdates_append], h2, rfl⟩)
  | fetchResponse k r =>
    simp only [LoopState.process] at hr
    split at hr
    · split at hr <;> cases hr
    · cases hr
    · cases hr
  | program pm =>
    cases pm with
    | panic t => cases hr; exact .inr (.inl ⟨t, rfl, rfl⟩)
    | plainResponse b => cases hr; exact .inl ⟨b, rfl, rfl⟩
    | domUpdate j => simp only [LoopState.process] at hr; split at hr <;> cases hr
    | setTimeoutZero cb => simp only [LoopState.process] at hr; split at hr <;> cases hr
    | fetchRequest cb k =>
      simp only [LoopState.process] at hr
      split at hr
      · cases hr
      · split at hr <;> cases hr
      · cases hr

/-! ## Equal requests -/

/-- message.rs:27-33, as the `HashMap` sees it: `Hash` (message.rs:43-53) goes over the headers in the order of
their own `HashMap`, which differs from map to map, even if the maps are equal. Two requests with
headers in different orders have different hashes, so they are different keys. -/
structure RequestKey where
  method : String
  url : String
  headers : List (String × String)
  body : Option (List Char)
  deriving DecidableEq

/-- message.rs:35-42: the requests are equal. -/
def RequestKey.Equal (a b : RequestKey) : Prop :=
  a.method = b.method ∧ a.url = b.url ∧ a.headers.Perm b.headers ∧ a.body = b.body

/-- **C31, equal requests.** Requests with at most one header are sent once. -/
theorem C31_equal_once_partial {p : Program RequestKey Resp Client Doc} {s : LoopState RequestKey Resp Client Doc} (h : s.Reached p)
    (hh : ∀ k ∈ s.sent, k.headers.length ≤ 1) : s.sent.Pairwise fun a b => ¬ a.Equal b := by
  have := (inv_reached h).sent
  rw [List.Nodup, List.pairwise_iff_forall_sublist] at this
  rw [List.pairwise_iff_forall_sublist]
  intro a b hab ⟨h1, h2, h3, h4⟩
  refine this hab ?_
  have hb : b.headers.length ≤ 1 := hh b (hab.subset (by simp))
  obtain ⟨m, u, hd, bd⟩ := a
  obtain ⟨m', u', hd', bd'⟩ := b
  cases h1; cases h2; cases h4
  have : hd = hd' := by
    match hd', h3, hb with
    | [], h3, _ => exact h3.eq_nil
    | [x], h3, _ => exact List.perm_singleton.mp h3
  rw [this]

/-- Two equal requests with two headers, in different orders. -/
def twiceA : RequestKey := ⟨"GET", "/x", [("a", "1"), ("b", "2")], none⟩
def twiceB : RequestKey := ⟨"GET", "/x", [("b", "2"), ("a", "1")], none⟩

/-- What is missing in `C31_sent_once_partial` and `C31_equal_once_partial`: with two headers an equal request can be sent
again. -/
theorem C31_equal_violated : ∃ (p : Program RequestKey Unit Unit Unit) (s : LoopState RequestKey Unit Unit Unit),
    s.Reached p ∧ ∃ a b, [a, b].Sublist s.sent ∧ a.Equal b := by
  let p : Program RequestKey Unit Unit Unit := ⟨fun _ _ _ => none, fun _ _ => none, fun _ => .plain []⟩
  have h1 := LoopState.Reached.start (Resp := Unit) (p := p) () () [.fetchRequest 1 twiceA, .fetchRequest 2 twiceB]
  have h2 := h1.step (.handle rfl rfl)
  have h3 := h2.step (.handle rfl rfl)
  refine ⟨p, _, h3, twiceA, twiceB, ?_, rfl, rfl, .swap _ _ _, rfl⟩
  exact List.Sublist.refl _

/-- The theorems speak about something: a program asks twice for the same, gets the response,
asks again, and the page is finished. -/
example : ∃ (p : Program String Nat Unit Unit) (s : LoopState String Nat Unit Unit) (r : Response),
    s.Reached p ∧ s.Finished p r ∧ s.sent = ["/a"] ∧ s.calls "/a" = [(1, 7), (2, 7), (3, 7)] := by
  let p : Program String Nat Unit Unit :=
    ⟨fun _ cb _ => some ((), if cb = 2 then [.fetchRequest 3 "/a"] else []), fun _ _ => none, fun _ => .plain []⟩
  have h1 := LoopState.Reached.start (Resp := Nat) (p := p) () () [.fetchRequest 1 "/a", .fetchRequest 2 "/a"]
  have h2 := h1.step (.handle rfl rfl)
  have h3 := h2.step (.arrive (k := "/a") (List.mem_cons_self) 7)
  have h4 := h3.step (.handle rfl rfl)
  have h5 := h4.step (.handle rfl rfl)
  have h6 := h5.step (.handle rfl rfl)
  exact ⟨p, _, _, h6, ⟨rfl, rfl, rfl⟩, rfl, rfl⟩

/-- A page with commands sent before and after a response. -/
example : ∃ (p : Program String Nat Unit (List JsJson)) (s : LoopState String Nat Unit (List JsJson)) (r : Response),
    s.Reached p ∧ s.Finished p r ∧ domUpdates s.produced = [.null, .tru] ∧ s.doc = [.null, .tru] := by
  let p : Program String Nat Unit (List JsJson) :=
    ⟨fun _ _ _ => some ((), [.domUpdate .tru]), fun d j => some (d ++ [j]), fun _ => .plain []⟩
  have h1 := LoopState.Reached.start (Resp := Nat) (p := p) () [] [.domUpdate .null, .fetchRequest 2 "/a"]
  have h2 := h1.step (.handle rfl rfl)
  have h3 := h2.step (.handle rfl rfl)
  have h4 := h3.step (.arrive (k := "/a") (List.mem_cons_self) 7)
  have h5 := h4.step (.handle rfl rfl)
  have h6 := h5.step (.handle rfl rfl)
  exact ⟨p, _, _, h6, ⟨rfl, rfl, rfl⟩, rfl, rfl⟩

/-- The page that is sent, in full: `feed` is the parsing and execution of commands, `build` is
the model of C32.  (Nesting of the document is bounded by `depth`, see `Server.html`.) -/
def fullProgram (e : Escape) (mount : Mount) (env : List (String × String)) (depth : Nat)
    (call : Client → Nat → Option Resp → Option (Client × List (ProgramMessage Key))) : Program Key Resp Client Server where
  call := call
  feed doc j :=
    match batchFromJson [] j with
    | .ok cs => doc.run cs
    | .err _ => some doc
    | _ => none
  build doc :=
    match doc.html false depth 1 with
    | some root => buildResponse e mount env root doc.css
    | none => .internalError []

end Verif.Ssr
