import Verif.Host.RequestsProof
/-!
# C59: theorems
-/
namespace Verif.Host.Requests
open Verif.Codec

theorem calls_eq (es : List Event) : calls es = (es.filterMap requestOf).length := by
  induction es with
  | nil => rfl
  | cons e es ih => cases e <;> simp [calls, requestOf, ih, List.filterMap_cons]

/-- **C59** (refinement). Whatever a program requests and whenever the answers arrive, what happens is what the specification says:
every request is sent as it was built, its callback is removed when it is answered, and the program gets the meaning of the outcome of
its own request. Missing: requests that are not `Good` (`C59_json_text_violated`, `C59_headers_violated`). -/
theorem C59_refines_partial (pf : Platform) (write : Codec.JsJson → String) (hwr : pf.Writes write) (first : Nat) (es : List Event)
    (hg : ∀ e ∈ es, e.Good pf) (hb : first + (es.filterMap requestOf).length < 2 ^ 64) :
    (run pf (start first) es).net.log = (Spec.run pf write first es).log ∧
      (run pf (start first) es).net.inflight = (Spec.run pf write first es).waiting ∧
      (run pf (start first) es).store = (Spec.run pf write first es).waiting := by
  have hc := calls_eq es
  have h := (rel_start first).run hwr es hg (by rw [hc]; exact hb)
  exact ⟨h.log, h.inflight, h.store⟩

/-- **C59** (requests). The requests that are sent are those that the program made, in this order, each once and as it was built. -/
theorem C59_sent_partial (pf : Platform) (write : Codec.JsJson → String) (hwr : pf.Writes write) (first : Nat) (es : List Event)
    (hg : ∀ e ∈ es, e.Good pf) (hb : first + (es.filterMap requestOf).length < 2 ^ 64) :
    (run pf (start first) es).net.log.filterMap sentOf =
      (((es.filterMap requestOf).map (wireOf write)).zipIdx first).map fun x => (x.2, x.1) := by
  rw [(C59_refines_partial pf write hwr first es hg hb).1]
  exact (inv_run pf write first es).sents

/-- **C59** (answers). What the program gets for a request comes after that request was sent and is the meaning of an outcome of that
request; no request is answered twice; and the number of requests that started and have not stopped is that of the requests that have
no outcome yet. -/
theorem C59_answers_partial (pf : Platform) (write : Codec.JsJson → String) (hwr : pf.Writes write) (first : Nat) (es : List Event)
    (hg : ∀ e ∈ es, e.Good pf) (hb : first + (es.filterMap requestOf).length < 2 ^ 64) :
    let s := run pf (start first) es
    (∀ l1 k r l2, s.net.log = l1 ++ .got k r :: l2 → (∃ w, .sent k w ∈ l1) ∧ ∃ out, .answer k out ∈ es ∧ r = meaning pf out) ∧
      (s.net.log.filterMap gotOf).Nodup ∧
      s.net.log.countP Entry.isStart = s.net.log.countP Entry.isStop + s.net.inflight.length := by
  obtain ⟨h1, h2, -⟩ := C59_refines_partial pf write hwr first es hg hb
  have h := inv_run pf write first es
  dsimp only
  rw [h1, h2]
  exact ⟨h.order, h.gots, h.counts⟩

/-- **C59** (no answer is lost). If a request was sent and has its outcome, the program has not given it up and has not got the answer
yet, then a timeout is set that will wake the code that waits. -/
theorem C59_woken_partial (pf : Platform) (write : Codec.JsJson → String) (hwr : pf.Writes write) (first : Nat) (es : List Event)
    (hg : ∀ e ∈ es, e.Good pf) (hb : first + (es.filterMap requestOf).length < 2 ^ 64) (k : Nat) (w : Wire)
    (hs : .sent k w ∈ (run pf (start first) es).net.log) (hi : k ∉ (run pf (start first) es).net.inflight)
    (hd : Event.drop k ∉ es) (hn : ∀ r, .got k r ∉ (run pf (start first) es).net.log) : k ∈ (run pf (start first) es).wakes := by
  have hc := calls_eq es
  have hr := (rel_start first).run hwr es hg (by rw [hc]; exact hb)
  have h := inv_run pf write first es
  change Rel _ (Spec.run pf write first es) at hr
  rw [hr.log] at hs hn
  rw [hr.inflight] at hi
  have hk : first ≤ k ∧ k < (Spec.run pf write first es).next := by
    have : (k, w) ∈ (Spec.run pf write first es).log.filterMap sentOf := List.mem_filterMap.2 ⟨_, hs, rfl⟩
    rw [h.sents] at this
    obtain ⟨x, hx, hxe⟩ := List.mem_map.1 this
    have := List.mem_zipIdx hx
    rw [h.next]
    simp only [Prod.mk.injEq] at hxe
    simp only [List.length_map] at this
    omega
  have hl : k ∈ (Spec.run pf write first es).listening := by
    rcases h.fate k hk.1 hk.2 hd with hl | hl
    · exact hl
    · obtain ⟨e, he, hk⟩ := List.mem_filterMap.1 hl
      cases e <;> simp only [gotOf, Option.some.injEq, reduceCtorEq] at hk
      subst hk
      exact absurd he (hn _)
  rcases h.open' k hl with hw | ⟨r, hr'⟩
  · exact absurd hw hi
  · exact hr.wakes k r hr'

/-! ## The server -/

mutual
theorem convert_id : ∀ j j', convertToJsvalue j = some j' → j' = j
  | .tru, j', h => by simp [convertToJsvalue] at h; exact h.symm
  | .fls, j', h => by simp [convertToJsvalue] at h; exact h.symm
  | .null, j', h => by simp [convertToJsvalue] at h; exact h.symm
  | .str s, j', h => by simp [convertToJsvalue] at h; exact h.symm
  | .num b, j', h => by
      simp only [convertToJsvalue] at h
      split at h
      · simp at h; exact h.symm
      · simp at h
  | .list l, j', h => by
      simp only [convertToJsvalue, Option.map_eq_some_iff] at h
      obtain ⟨l', hl, rfl⟩ := h
      rw [convertL_id l l' hl]
  | .obj l, j', h => by
      simp only [convertToJsvalue, Option.map_eq_some_iff] at h
      obtain ⟨l', hl, rfl⟩ := h
      rw [convertO_id l l' hl]
theorem convertL_id : ∀ l l', convertToJsvalueL l = some l' → l' = l
  | [], l', h => by simp [convertToJsvalueL] at h; exact h
  | x :: xs, l', h => by
      simp only [convertToJsvalueL, Option.bind_eq_bind, Option.bind_eq_some_iff, Option.some.injEq] at h
      obtain ⟨x', hx, xs', hxs, rfl⟩ := h
      rw [convert_id x x' hx, convertL_id xs xs' hxs]
theorem convertO_id : ∀ l l', convertToJsvalueO l = some l' → l' = l
  | [], l', h => by simp [convertToJsvalueO] at h; exact h
  | (k, x) :: xs, l', h => by
      simp only [convertToJsvalueO, Option.bind_eq_bind, Option.bind_eq_some_iff, Option.some.injEq] at h
      obtain ⟨x', hx, xs', hxs, rfl⟩ := h
      rw [convert_id x x' hx, convertO_id xs xs' hxs]
end

mutual
/-- All numbers are finite. -/
inductive Finite : Codec.JsJson → Prop
  | tru : Finite .tru
  | fls : Finite .fls
  | null : Finite .null
  | str (s : String) : Finite (.str s)
  | num (b : UInt64) : (b.toNat / 2 ^ 52) % 2 ^ 11 ≠ 2 ^ 11 - 1 → Finite (.num b)
  | list (l : List Codec.JsJson) : FiniteL l → Finite (.list l)
  | obj (l : List (String × Codec.JsJson)) : FiniteO l → Finite (.obj l)
inductive FiniteL : List Codec.JsJson → Prop
  | nil : FiniteL []
  | cons (x : Codec.JsJson) (xs : List Codec.JsJson) : Finite x → FiniteL xs → FiniteL (x :: xs)
inductive FiniteO : List (String × Codec.JsJson) → Prop
  | nil : FiniteO []
  | cons (k : String) (x : Codec.JsJson) (xs : List (String × Codec.JsJson)) : Finite x → FiniteO xs → FiniteO ((k, x) :: xs)
end

theorem finite_iff (b : UInt64) : finite b = true ↔ (b.toNat / 2 ^ 52) % 2 ^ 11 ≠ 2 ^ 11 - 1 := by
  have h : ((b >>> 52) &&& 0x7ff).toNat = (b.toNat / 2 ^ 52) % 2 ^ 11 := by
    rw [UInt64.toNat_and, UInt64.toNat_shiftRight]
    have e1 : (52 : UInt64).toNat % 64 = 52 := by decide
    have e2 : (0x7ff : UInt64).toNat = 2 ^ 11 - 1 := by decide
    rw [e1, e2, Nat.shiftRight_eq_div_pow, Nat.and_two_pow_sub_one_eq_mod]
  unfold finite
  simp only [bne_iff_ne, ne_eq, ← UInt64.toNat_inj, h]
  rfl

mutual
theorem convert_some : ∀ j, Finite j → convertToJsvalue j = some j
  | .tru, _ => rfl
  | .fls, _ => rfl
  | .null, _ => rfl
  | .str _, _ => rfl
  | .num b, h => by cases h with | num _ h => simp [convertToJsvalue, (finite_iff b).2 h]
  | .list l, h => by cases h with | list _ h => simp [convertToJsvalue, convertL_some l h]
  | .obj l, h => by cases h with | obj _ h => simp [convertToJsvalue, convertO_some l h]
theorem convertL_some : ∀ l, FiniteL l → convertToJsvalueL l = some l
  | [], _ => rfl
  | x :: xs, h => by cases h with | cons _ _ h1 h2 => simp [convertToJsvalueL, convert_some x h1, convertL_some xs h2]
theorem convertO_some : ∀ l, FiniteO l → convertToJsvalueO l = some l
  | [], _ => rfl
  | (k, x) :: xs, h => by cases h with | cons _ _ _ h1 h2 => simp [convertToJsvalueO, convert_some x h1, convertO_some xs h2]
end

/-- **C59** (server, requests). While a page is rendered on the server, a GET or POST request is sent as it was built too (JSON is
written by serde_json). Missing: other methods (`C59_server_method_violated`), numbers that are not finite
(`C59_server_number_violated`), binary bodies without a content type (`C47_request_binary_violated`). -/
theorem C59_server_request_partial (sd : Serde) (r : Request) (hm : r.method = .get ∨ r.method = .post)
    (hd : DistinctNames (r.headers.map fun h => (h.1.toList, h.2.toList))) (hf : ∀ j, r.body = some (.json j) → Finite j)
    (hb : ∀ b, r.body = some (.binary b) → explicit (r.headers.map fun h => (h.1.toList, h.2.toList)) "content-type".toList ≠ none) :
    serverSend sd r = some (wireOf sd.write r) := by
  have hp : serverPayload sd r.body = some (wireOf sd.write r).payload := by
    unfold serverPayload wireOf
    rcases hr : r.body with _ | (s | j | b)
    · rfl
    · rfl
    · simp [convert_some j (hf j hr)]
    · rfl
  have hh : (fun name => (serverHeaders (record r.headers) (headerKind r.body)).lookup name) = (wireOf sd.write r).header := by
    funext name
    have h1 := C47_request_partial (record r.headers) (headerKind r.body) hd (by
      intro hk
      rcases hr : r.body with _ | (s | j | b) <;> rw [hr] at hk <;> simp [headerKind] at hk
      exact hb b hr) name
    rw [h1, C47_request_browser (record r.headers) _ hd]
    simp only [wireOf, record]
    rcases hr : r.body with _ | (s | j | b) <;> rfl
  unfold serverSend
  have hmeth := method_eq sd.write r
  rcases hm with hm | hm <;> simp only [hm] at hmeth ⊢ <;> rw [hp, hh] <;> simp only [Option.map_some, hmeth] <;> rfl

/-- **C59** (server, answers). For a response that could be read, with at most one content-type header of visible ASCII characters, whose text is
valid and has no byte order mark and whose JSON serde_json reads as the browser does, the program gets the same on the server.
Missing: `C59_server_mark_violated`, `C59_server_utf8_violated`, `C47_response_twice_violated`, and the texts of errors. -/
theorem C59_server_answer_partial (pf : Platform) (sd : Serde) (status : UInt32) (types : List (List UInt8)) (bytes : List UInt8)
    (ht : types = [] ∨ ∃ t, types = [t] ∧ t.all visible = true)
    (htext : (browserKind types = .text) → fromUtf8 bytes = some (pf.decode bytes))
    (hjson : (browserKind types = .json) → ∃ j, pf.parse bytes = .ok j ∧ sd.parse bytes = some j) :
    readReply pf (serverReply sd (.response status types (.ok bytes))) = some (meaning pf (.response status types (.ok bytes))) ∧
      ∃ body, meaning pf (.response status types (.ok bytes)) = .ok (status, body) := by
  have hk : serverKind types = browserKind types := by
    rcases ht with rfl | ⟨t, rfl, hv⟩
    · exact (C47_response_partial []).1
    · have := (C47_response_partial t).2
      rwa [if_pos hv] at this
  have he := kind_eq types
  simp only [serverReply, hk, meaning]
  split at he
  · rename_i hc
    obtain ⟨j, h1, h2⟩ := hjson he
    simp only [he, if_pos hc, h1, h2]
    exact ⟨rfl, _, rfl⟩
  · rename_i hc
    split at he
    · rename_i hc2
      simp only [he, if_neg hc, if_pos hc2, htext he]
      exact ⟨rfl, _, rfl⟩
    · rename_i hc2
      simp only [he, if_neg hc, if_neg hc2]
      exact ⟨rfl, _, rfl⟩

/-! ## Examples and violations -/

/-- A platform for examples: every record of headers without an empty name is accepted. -/
def samplePlatform : Platform where
  lossy := fun _ => ""
  accepts := fun h => h.all fun e => e.1 ≠ []
  stringify := fun _ => "{}"
  parse := fun b => if b = [] then .error "SyntaxError" else .ok .null
  decode := fun b => (fromUtf8 b).getD "?"
  debug := fun _ => "error"

def sampleRequest : Request := ⟨.post, "/api", [("X-A", "1")], some (.json (.obj [("n", .null)]))⟩

/-- A request is made, its outcome arrives, the timeout fires; another request is still without an outcome. -/
def sampleEvents : List Event :=
  [.call sampleRequest, .call ⟨.get, "/b", [], none⟩, .answer 1 (.response 200 [] (.ok [1, 2])), .wake 1]

theorem sample_writes : samplePlatform.Writes fun _ => "{}" := fun _ _ _ => rfl

theorem sampleRequest_good : sampleRequest.Good samplePlatform where
  names := by unfold DistinctNames; decide
  accepted := by decide
  plain := by intro s h; simp [sampleRequest] at h
  few := by decide
  safeUrl := by decide
  safeHeaders := by
    intro h hm
    simp only [sampleRequest, List.mem_singleton] at hm
    subst hm
    decide
  safeBody := by
    refine ⟨⟨by simp, by simp, trivial, trivial⟩, ?_, by decide, trivial, trivial⟩
    decide
  size := by decide

theorem getRequest_good : (⟨.get, "/b", [], none⟩ : Request).Good samplePlatform where
  names := by unfold DistinctNames; decide
  accepted := by decide
  plain := by intro s h; simp at h
  few := by decide
  safeUrl := by decide
  safeHeaders := by simp
  safeBody := trivial
  size := by decide

theorem sampleEvents_good : ∀ e ∈ sampleEvents, e.Good samplePlatform := by
  intro e he
  simp only [sampleEvents, List.mem_cons, List.not_mem_nil, or_false] at he
  rcases he with rfl | rfl | rfl | rfl
  · exact sampleRequest_good
  · exact getRequest_good
  · refine ⟨by decide, ?_, ?_⟩
    · decide
    · exact ⟨trivial, by decide⟩
  · trivial

example : 1 + (sampleEvents.filterMap requestOf).length < 2 ^ 64 := by decide

/-- The example does what it should: the first request is answered, the second is not. -/
example : (run samplePlatform (start 1) sampleEvents).net.inflight = [2] ∧
    (run samplePlatform (start 1) sampleEvents).net.log.filterMap gotOf = [1] ∧
    (run samplePlatform (start 1) (sampleEvents.take 3)).wakes = [1] := by decide +kernel

theorem slash_safe : ¬ Ts.bom <+: strBytes "/" := by decide
theorem a_safe : ¬ Ts.bom <+: strBytes "a" := by decide

/-- A JSON text in the body (`body_json("a")`) is sent as plain text, without quotes. -/
theorem C59_json_text_violated (pf : Platform) (hp : ∀ h, pf.accepts h = true) :
    let net := send pf ⟨[], []⟩ 1 ⟨.post, "/", [], some (.json (.str "a"))⟩
    ∃ w, net.log = [.sent 1 w] ∧ w.payload = some (.text "a") ∧ w.header "content-type".toList = some "text/plain; charset=utf-8".toList := by
  have hs := send_of pf ⟨[], []⟩ 1 ⟨.post, "/", [], some (.json (.str "a"))⟩ (.str "a") (.json _ _ (.str _))
    ⟨trivial, trivial, trivial, ⟨by simp, by simp, trivial⟩, trivial, trivial⟩
    ⟨trivial, (method_small .post).2, slash_safe, trivial, a_safe, trivial⟩ (by decide)
    (some (browserHeaders [] .text, some (.text "a"))) (by simp [getHeadersAndBody, hp])
  dsimp only
  rw [hs]
  refine ⟨_, rfl, rfl, ?_⟩
  decide +kernel

/-- Headers that the browser does not accept: nothing is sent, and the program waits for ever. -/
theorem C59_headers_violated :
    let s := run samplePlatform (start 1) [.call ⟨.get, "/", [("", "1")], none⟩]
    s.net.inflight = [] ∧ s.store = [1] ∧ s.wakes = [] ∧
      ∀ es : List Event, (∀ r, Event.call r ∉ es) → (run samplePlatform s es).net.log.filterMap gotOf = [] := by
  have h0 : let s := run samplePlatform (start 1) [.call ⟨.get, "/", [("", "1")], none⟩]
      s.net.inflight = [] ∧ s.store = [1] ∧ s.wakes = [] ∧ s.net.log.filterMap gotOf = [] ∧
        ∀ c ∈ s.cells, c.2.result = none := by
    have ha : samplePlatform.accepts [([], ['1'])] = false := by decide
    have hs := send_of samplePlatform ⟨[], [.start]⟩ 1 ⟨.get, "/", [("", "1")], none⟩ .undefined .undefined
      ⟨trivial, trivial, trivial, ⟨by simp, by simp, trivial, trivial⟩, trivial, trivial⟩
      ⟨trivial, (method_small .get).2, slash_safe, headers_safe (by simp; decide), trivial, trivial⟩ (by decide)
      none (by simp [getHeadersAndBody, ha])
    dsimp only at hs
    have hr : run samplePlatform (start 1) [.call ⟨.get, "/", [("", "1")], none⟩] = ⟨⟨[], [.start]⟩, [1], 2, [(1, ⟨true, none⟩)], []⟩ := by
      simp only [run, List.foldl, step, call, start, List.nil_append, hs]
    rw [hr]
    simp [gotOf]
  obtain ⟨h1, h2, h3, h4, h5⟩ := h0
  refine ⟨h1, h2, h3, fun es hes => ?_⟩
  generalize run samplePlatform (start 1) [.call ⟨.get, "/", [("", "1")], none⟩] = s at *
  clear h2
  induction es generalizing s with
  | nil => exact h4
  | cons e es ih =>
    have hpoll : ∀ k, (poll k s).net = s.net ∧ (poll k s).wakes = s.wakes ∧ ∀ c ∈ (poll k s).cells, c.2.result = none := by
      intro k
      unfold poll
      split
      · rename_i r hc
        have := h5 _ (lookup_mem hc)
        simp at this
      · refine ⟨rfl, rfl, fun c hc => ?_⟩
        obtain ⟨x, hx, rfl⟩ := List.mem_map.1 hc
        split
        · rfl
        · exact h5 x hx
      · exact ⟨rfl, rfl, h5⟩
    have hnext : ∀ r, Event.call r ∉ es := fun r hr => hes r (by simp [hr])
    cases e with
    | call r => exact absurd (by simp) (hes r)
    | answer k out =>
      have : step samplePlatform s (.answer k out) = s := by simp [step, answer, h1]
      show ((run samplePlatform (step samplePlatform s (.answer k out)) es).net.log.filterMap gotOf) = []
      rw [this]
      exact ih hnext s h1 h3 h4 h5
    | wake k =>
      have : step samplePlatform s (.wake k) = s := by simp [step, h3]
      show ((run samplePlatform (step samplePlatform s (.wake k)) es).net.log.filterMap gotOf) = []
      rw [this]
      exact ih hnext s h1 h3 h4 h5
    | poll k =>
      obtain ⟨e1, e2, e3⟩ := hpoll k
      exact ih hnext (poll k s) (by rw [e1]; exact h1) (by rw [e2]; exact h3) (by rw [e1]; exact h4) e3
    | drop k => exact ih hnext { s with cells := s.cells.filter (·.1 ≠ k) } h1 h3 h4 fun c hc => h5 c (List.mem_filter.1 hc).1

/-- A method other than GET and POST is a panic on the server. -/
theorem C59_server_method_violated (sd : Serde) (url : String) : serverSend sd ⟨.put, url, [], none⟩ = none := rfl

/-- A number that is not finite (here infinity) is a panic on the server. -/
theorem C59_server_number_violated (sd : Serde) (url : String) : serverSend sd ⟨.post, url, [], some (.json (.num 0x7ff0000000000000))⟩ = none := by
  have : finite 0x7ff0000000000000 = false := by decide
  simp [serverSend, serverPayload, convertToJsvalue, this]

def plainType : List UInt8 := "text/plain".toList.map fun c => c.toNat.toUInt8

/-- A text with a byte order mark: the program gets it with the mark on the server and without in the browser (`hp`: the browser decodes as the
standard says). -/
theorem C59_server_mark_violated (pf : Platform) (sd : Serde) (hp : pf.decode (Ts.bom ++ [97]) = "a") :
    meaning pf (.response 200 [plainType] (.ok (Ts.bom ++ [97]))) = .ok (200, .text "a") ∧
      readReply pf (serverReply sd (.response 200 [plainType] (.ok (Ts.bom ++ [97])))) = some (.ok (200, .text "﻿a")) := by
  have hk : browserKind [plainType] = .text := by decide +kernel
  have hs : serverKind [plainType] = .text := by decide +kernel
  constructor
  · have := kind_eq [plainType]
    rw [hk] at this
    simp only [meaning]
    split at this
    · simp at this
    · rename_i h1
      split at this
      · rename_i h2
        rw [if_neg h1, if_pos h2, hp]
      · simp at this
  · have hu : fromUtf8 (Ts.bom ++ [97]) = some "﻿a" := by decide
    simp only [serverReply, hs, hu, readReply]

/-- A text that is not valid: an error on the server, a text in the browser. -/
theorem C59_server_utf8_violated (pf : Platform) (sd : Serde) :
    (∃ t, meaning pf (.response 200 [plainType] (.ok [255])) = .ok (200, .text t)) ∧
      ∃ e, readReply pf (serverReply sd (.response 200 [plainType] (.ok [255]))) = some (.error e) := by
  have hk : browserKind [plainType] = .text := by decide +kernel
  have hs : serverKind [plainType] = .text := by decide +kernel
  constructor
  · have := kind_eq [plainType]
    rw [hk] at this
    simp only [meaning]
    split at this
    · simp at this
    · rename_i h1
      split at this
      · rename_i h2
        rw [if_neg h1, if_pos h2]
        exact ⟨_, rfl⟩
      · simp at this
  · have hu : fromUtf8 [255] = none := by decide
    simp only [serverReply, hs, hu, readReply]
    exact ⟨_, rfl⟩

end Verif.Host.Requests
