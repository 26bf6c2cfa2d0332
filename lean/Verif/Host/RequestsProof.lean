import Verif.Host.Requests
import Verif.Host.TimersProof
import Mathlib.Data.List.Nodup
/-!
# C59: proofs
-/
namespace Verif.Host.Requests
open Verif.Codec

/-! ### The call -/

theorem builds_js (pf : Platform) (w : Net) (js : List Js) : Builds (world pf) w js (js.map Val.js) w := by
  induction js with
  | nil => exact .nil w
  | cons j js ih => exact .cons (o := world pf) w w j js _ ih

theorem send_eq (pf : Platform) (w : Net) (params : List JsValue) (js : List Js)
    (hd : DenotesL params js) (hw : JsValue.WFL params) (hs : Ts.JsSafeL params)
    (hl : JsValue.wireLenL params < 2 ^ 32 - 200) (w' : Net)
    (hc : (world pf).call w .fetch "fetch_send_request" (js.map Val.js) = (some (.js .undefined), w')) :
    (match (build [.api, .get "fetch", .call "fetch_send_request" params]).toSnapshot with
      | .ok m => (domAccess (world pf) pf.lossy w m.written 0 m.size).2
      | _ => w) = w' := by
  have hlen : (build [.api, .get "fetch", .call "fetch_send_request" params]).wireLen < 2 ^ 32 := by
    have e1 : "api".utf8ByteSize = 3 := by decide
    have e2 : "get".utf8ByteSize = 3 := by decide
    have e3 : "fetch".utf8ByteSize = 5 := by decide
    have e4 : "call".utf8ByteSize = 4 := by decide
    have e5 : "fetch_send_request".utf8ByteSize = 18 := by decide
    simp only [build, Access.item, List.map, JsValue.wireLen, JsValue.wireLenL, e1, e2, e3, e4, e5]
    omega
  have hwf : (build [.api, .get "fetch", .call "fetch_send_request" params]).WF := by
    simp [build, Access.item, JsValue.WF, JsValue.WFL, hw]
  have hsafe : Ts.JsSafe (build [.api, .get "fetch", .call "fetch_send_request" params]) := by
    have e1 : ¬ Ts.bom <+: strBytes "api" := by decide
    have e2 : ¬ Ts.bom <+: strBytes "get" := by decide
    have e3 : ¬ Ts.bom <+: strBytes "fetch" := by decide
    have e4 : ¬ Ts.bom <+: strBytes "call" := by decide
    have e5 : ¬ Ts.bom <+: strBytes "fetch_send_request" := by decide
    simp only [build, Access.item, List.map, Ts.JsSafe, Ts.JsSafeL]
    exact ⟨⟨e1, trivial⟩, ⟨e2, e3, trivial⟩, ⟨e4, e5, hs⟩, trivial⟩
  have hcall := Does.call (o := world pf) "fetch_send_request" params js _ w w .fetch hd (builds_js pf w js)
  rw [hc] at hcall
  have hchain : Chain (world pf) [.api, .get "fetch", .call "fetch_send_request" params] w (world pf).null (some (.js .undefined)) w' :=
    .cons _ _ w w _ _ .api _ (.api w _) (.cons _ _ w w _ _ .fetch _ (.get (o := world pf) "fetch" w .api)
      (.cons _ _ _ _ _ _ _ _ hcall (.nil _ _)))
  obtain ⟨hsnap, -⟩ := toSnapshot_eq _ hlen
  have := (C51_chain_partial (world pf) pf.lossy [.api, .get "fetch", .call "fetch_send_request" params] (by simp [Access.Plain]) hwf hsafe hlen
    (encV (build [.api, .get "fetch", .call "fetch_send_request" params])) 0 _ ⟨_, [], hsnap, by simp, Nat.zero_le _, rfl⟩ w _ _ hchain).2
      (.js .undefined) .undefined rfl .undefined (by simp [JsValue.WF]) (by simp [Ts.JsSafe]) (by simp [JsValue.wireLen])
  simp only [hsnap]
  rw [this]

theorem headersJson_js (headers : List (String × String)) :
    DenotesJ (headersJson headers) (.obj (headers.map fun h => (h.1, Js.str h.2))) := by
  refine .obj _ _ ?_
  induction headers with
  | nil => exact .nil
  | cons h l ih => exact .cons _ _ _ _ _ (.str _) ih

theorem headersOf_map (headers : List (String × String)) :
    headersOf (headers.map fun h => (h.1, Js.str h.2)) = some (headers.map fun h => (h.1.toList, h.2.toList)) := by
  induction headers with
  | nil => rfl
  | cons h l ih => simp [headersOf, ih]

theorem names_nodup {headers : List (String × String)} (h : DistinctNames (headers.map fun h => (h.1.toList, h.2.toList))) :
    (headers.map (·.1)).Nodup := by
  unfold DistinctNames at h
  have : (headers.map fun h => (h.1.toList, h.2.toList)).map (fun e => e.1.map asciiLower)
      = (headers.map (·.1)).map fun n => n.toList.map asciiLower := by simp [List.map_map, Function.comp_def]
  rw [this] at h
  exact List.Nodup.of_map _ h

theorem headers_wf {headers : List (String × String)} (h : DistinctNames (headers.map fun h => (h.1.toList, h.2.toList)))
    (hf : headers.length < 2 ^ 16) : (headersJson headers).WF := by
  refine ⟨?_, by simpa using hf, ?_⟩
  · simpa [List.map_map, Function.comp_def] using names_nodup h
  · clear h hf
    induction headers with
    | nil => trivial
    | cons h l ih => exact ⟨trivial, ih⟩

theorem headers_safe {headers : List (String × String)}
    (h : ∀ h ∈ headers, ¬ Ts.bom <+: strBytes h.1 ∧ h.1 ≠ "__proto__" ∧ ¬ Ts.bom <+: strBytes h.2) :
    Ts.JsSafeJ (headersJson headers) := by
  show Ts.JsSafeJO _
  induction headers with
  | nil => trivial
  | cons e l ih =>
    have := h e (by simp)
    exact ⟨this.1, this.2.1, this.2.2, ih fun e he => h e (by simp [he])⟩

theorem headers_len (headers : List (String × String)) :
    (headersJson headers).wireLen ≤ 3 + (headers.map fun h => h.1.utf8ByteSize + h.2.utf8ByteSize + 10).sum := by
  show 1 + 2 + JsJson.wireLenO _ ≤ _
  induction headers with
  | nil => simp [JsJson.wireLenO]
  | cons h l ih =>
    simp only [List.map_cons, JsJson.wireLenO, JsJson.wireLen, List.sum_cons] at ih ⊢
    omega

theorem payload_eq (pf : Platform) (write : Codec.JsJson → String) (hwr : pf.Writes write) (r : Request) (hg : r.Good pf) (js : Js)
    (hj : Denotes (bodyValue r.body) js) :
    ∃ h, getHeadersAndBody pf (r.headers.map fun h => (h.1.toList, h.2.toList)) js = some (h, (wireOf write r).payload) ∧
      ∀ name, h.lookup name = (wireOf write r).header name := by
  have hn := hg.names
  have hdef := fun b => C47_request_browser (r.headers.map fun h => (h.1.toList, h.2.toList)) b hn
  unfold getHeadersAndBody
  rw [if_pos hg.accepted]
  obtain ⟨method, url, headers, body⟩ := r
  dsimp only at hdef hj ⊢
  match body, hj, hg with
  | none, hj, hg => cases hj; exact ⟨_, rfl, hdef .none⟩
  | some (.text s), hj, hg => cases hj; exact ⟨_, rfl, hdef .text⟩
  | some (.binary b), hj, hg => cases hj; exact ⟨_, rfl, hdef .binary⟩
  | some (.json j), hj, hg =>
    cases hj with
    | json _ _ hj =>
      have := hwr _ _ hj
      cases hj with
      | str s => exact absurd rfl (hg.plain s)
      | _ => exact ⟨_, by simp only [this, wireOf], hdef .json⟩

theorem send_of (pf : Platform) (net : Net) (k : Nat) (r : Request) (js : Js) (hj : Denotes (bodyValue r.body) js)
    (hw : JsValue.WFL [.u64 (UInt64.ofNat k), .str r.method.toStr, .str r.url, .json (headersJson r.headers), bodyValue r.body])
    (hs : Ts.JsSafeL [.u64 (UInt64.ofNat k), .str r.method.toStr, .str r.url, .json (headersJson r.headers), bodyValue r.body])
    (hl : JsValue.wireLenL [.u64 (UInt64.ofNat k), .str r.method.toStr, .str r.url, .json (headersJson r.headers), bodyValue r.body] < 2 ^ 32 - 200)
    (h : Option (Headers × Option Payload))
    (hh : getHeadersAndBody pf (r.headers.map fun h => (h.1.toList, h.2.toList)) js = h) :
    send pf net k r = match h with
      | none => net
      | some (h, payload) => ⟨net.inflight ++ [(UInt64.ofNat k).toNat],
          net.log ++ [.sent (UInt64.ofNat k).toNat ⟨r.method.toStr, r.url, fun name => h.lookup name, payload⟩]⟩ := by
  have hd : DenotesL [.u64 (UInt64.ofNat k), .str r.method.toStr, .str r.url, .json (headersJson r.headers), bodyValue r.body]
      [.bigint (UInt64.ofNat k).toNat, .str r.method.toStr, .str r.url, .obj (r.headers.map fun h => (h.1, Js.str h.2)), js] :=
    .cons _ _ _ _ (.u64 _) (.cons _ _ _ _ (.str _) (.cons _ _ _ _ (.str _) (.cons _ _ _ _ (.json _ _ (headersJson_js _))
      (.cons _ _ _ _ hj .nil))))
  unfold send
  refine send_eq pf net _ _ hd hw hs hl _ ?_
  simp only [world, List.map, if_true, headersOf_map, hh]
  cases h with
  | none => rfl
  | some x => simp only [Int.toNat_natCast]

theorem denotes_exists (r : Request) : ∃ js, Denotes (bodyValue r.body) js := by
  rcases r.body with _ | (s | j | b)
  · exact ⟨_, .undefined⟩
  · exact ⟨_, .str s⟩
  · exact ⟨_, .json j _ (Cookies.denotes_ofJson j)⟩
  · exact ⟨_, .vec b⟩

theorem method_small (m : Method) : m.toStr.utf8ByteSize ≤ 7 ∧ ¬ Ts.bom <+: strBytes m.toStr := by
  cases m <;> decide

theorem method_eq (write : Codec.JsJson → String) (r : Request) : r.method.toStr = (wireOf write r).method := by
  obtain ⟨m, -, -, -⟩ := r
  cases m <;> rfl

theorem send_good (pf : Platform) (write : Codec.JsJson → String) (hwr : pf.Writes write) (net : Net) {k : Nat} (hk : k < 2 ^ 64)
    (r : Request) (hg : r.Good pf) :
    send pf net k r = ⟨net.inflight ++ [k], net.log ++ [.sent k (wireOf write r)]⟩ := by
  have hk' : (UInt64.ofNat k).toNat = k := by rw [UInt64.toNat_ofNat']; omega
  obtain ⟨js, hj⟩ := denotes_exists r
  obtain ⟨h, hh, hname⟩ := payload_eq pf write hwr r hg js hj
  have hd : DenotesL [.u64 (UInt64.ofNat k), .str r.method.toStr, .str r.url, .json (headersJson r.headers), bodyValue r.body]
      [.bigint (UInt64.ofNat k).toNat, .str r.method.toStr, .str r.url, .obj (r.headers.map fun h => (h.1, Js.str h.2)), js] :=
    .cons _ _ _ _ (.u64 _) (.cons _ _ _ _ (.str _) (.cons _ _ _ _ (.str _) (.cons _ _ _ _ (.json _ _ (headersJson_js _))
      (.cons _ _ _ _ hj .nil))))
  have hm := method_small r.method
  have hhl := headers_len r.headers
  have hsz := hg.size
  have hsb := hg.safeBody
  unfold send
  refine send_eq pf net _ _ hd ?_ ?_ ?_ _ ?_
  · refine ⟨trivial, trivial, trivial, headers_wf hg.names hg.few, ?_, trivial⟩
    match hb : r.body with
    | none => trivial
    | some (.text s) => trivial
    | some (.binary b) => trivial
    | some (.json j) => rw [hb] at hsb; exact hsb.1
  · refine ⟨trivial, hm.2, hg.safeUrl, headers_safe hg.safeHeaders, ?_, trivial⟩
    match hb : r.body with
    | none => trivial
    | some (.text s) => rw [hb] at hsb; exact hsb
    | some (.binary b) => trivial
    | some (.json j) => rw [hb] at hsb; exact hsb.2
  · have : (bodyValue r.body).wireLen ≤ 5 + bodySize r.body := by
      rcases r.body with _ | (s | j | b) <;> simp [bodyValue, bodySize, JsValue.wireLen]
    simp only [JsValue.wireLenL, JsValue.wireLen]
    omega
  · have hw : wireOf write r = ⟨r.method.toStr, r.url, fun name => h.lookup name, (wireOf write r).payload⟩ := by
      have : (fun name => h.lookup name) = (wireOf write r).header := funext hname
      rw [this, method_eq write r]
      rfl
    simp only [world, List.map, if_true, headersOf_map, hh]
    rw [← hw, hk']
    simp

/-! ### The answer -/

theorem contentType_eq (types : List (List UInt8)) (h : types ≠ []) : browserContentType types = some (contentType types) := by
  cases types with
  | nil => exact absurd rfl h
  | cons v vs =>
    simp only [browserContentType, contentType, List.map_cons, Option.some.injEq]
    induction vs generalizing v with
    | nil => simp
    | cons x xs ih =>
      have := ih x (by simp)
      simp only [List.map_cons] at this ⊢
      rw [List.intercalate_cons_cons, ← this]
      simp

theorem contentType_lt (types : List (List UInt8)) {c : Char} (h : c ∈ contentType types) : c.toNat < 256 := by
  cases types with
  | nil => simp [contentType] at h
  | cons v vs =>
    have := contentType_eq (v :: vs) (by simp)
    simp only [browserContentType, Option.some.injEq] at this
    rw [← this] at h
    simp only [List.mem_append, List.mem_flatMap, List.mem_cons] at h
    rcases h with h | ⟨a, -, rfl | rfl | h⟩
    · exact latin1_lt h
    · decide
    · decide
    · exact latin1_lt h

open Classical in
theorem kind_eq (types : List (List UInt8)) :
    browserKind types = if types ≠ [] ∧ HasType "application/json".toList (contentType types) then .json
      else if types ≠ [] ∧ HasType "text/plain".toList (contentType types) then .text else .bin := by
  by_cases h : types = []
  · subst h; simp [browserKind, browserContentType, getTypeResponse]
  · have h1 := trimmed_iff "application/json".toList (contentType types) (fun c hc => contentType_lt _ hc)
      (by decide) (by decide) (by decide) (by decide)
    have h2 := trimmed_iff "text/plain".toList (contentType types) (fun c hc => contentType_lt _ hc)
      (by decide) (by decide) (by decide) (by decide)
    unfold browserKind
    rw [contentType_eq _ h]
    simp only [getTypeResponse, ← h1, ← h2, ne_eq, h, not_false_eq_true, true_and]

theorem reply_read (pf : Platform) (out : Outcome) (hf : out.Fits pf) :
    ∃ v, transfer (reply pf out) = .value v ∧ readReply pf v = some (meaning pf out) := by
  have key : ∀ v : JsValue, v.WF → v.NoObject → v.wireLen + 1 < 2 ^ 32 → readReply pf v = some (meaning pf out) →
      reply pf out = v → ∃ v, transfer (reply pf out) = .value v ∧ readReply pf v = some (meaning pf out) := by
    intro v hw ho hl hr he
    exact ⟨v, by rw [he]; exact transfer_ok hw ho hl, hr⟩
  match out, hf with
  | .failed m, hf =>
    refine key (.list [.fls, .u32 0, .str m]) ?_ ?_ ?_ rfl rfl
    · simp [JsValue.WF, JsValue.WFL]
    · simp [JsValue.NoObject, JsValue.NoObjectL]
    · simp only [JsValue.wireLen, JsValue.wireLenL, Outcome.Fits] at hf ⊢; omega
  | .response st ty (.error e), hf =>
    refine key (.list [.fls, .u32 st, .str e]) ?_ ?_ ?_ rfl rfl
    · simp [JsValue.WF, JsValue.WFL]
    · simp [JsValue.NoObject, JsValue.NoObjectL]
    · simp only [JsValue.wireLen, JsValue.wireLenL, Outcome.Fits] at hf ⊢; omega
  | .response st ty (.ok bytes), hf =>
    simp only [Outcome.Fits] at hf
    have hk := kind_eq ty
    simp only [reply, meaning] at key ⊢
    split at hk
    · rename_i hc
      simp only [hk, if_pos hc] at key ⊢
      cases hp : pf.parse bytes with
      | ok j =>
        simp only [hp] at key hf ⊢
        refine key _ ?_ ?_ ?_ rfl rfl
        · simpa [JsValue.WF, JsValue.WFL] using hf.2.2.1
        · simp [JsValue.NoObject, JsValue.NoObjectL]
        · simp only [JsValue.wireLen, JsValue.wireLenL]; omega
      | error e =>
        simp only [hp] at key hf ⊢
        refine key _ ?_ ?_ ?_ rfl rfl
        · simp [JsValue.WF, JsValue.WFL]
        · simp [JsValue.NoObject, JsValue.NoObjectL]
        · simp only [JsValue.wireLen, JsValue.wireLenL]; omega
    · rename_i hc
      split at hk
      · rename_i ht
        simp only [hk, if_neg hc, if_pos ht] at key ⊢
        refine key _ ?_ ?_ ?_ rfl rfl
        · simp [JsValue.WF, JsValue.WFL]
        · simp [JsValue.NoObject, JsValue.NoObjectL]
        · simp only [JsValue.wireLen, JsValue.wireLenL]; omega
      · rename_i ht
        simp only [hk, if_neg hc, if_neg ht] at key ⊢
        refine key _ ?_ ?_ ?_ rfl rfl
        · simp [JsValue.WF, JsValue.WFL]
        · simp [JsValue.NoObject, JsValue.NoObjectL]
        · simp only [JsValue.wireLen, JsValue.wireLenL]; omega

/-! ### The relation between the model and the specification -/

theorem lookup_append {β : Type} (l : List (Nat × β)) (k : Nat) (v : β) (j : Nat) :
    (l ++ [(k, v)]).lookup j = (l.lookup j).or (if j = k then some v else none) := Timers.lookup_append l k v j

theorem lookup_filter {β : Type} (l : List (Nat × β)) (k j : Nat) :
    (l.filter (·.1 ≠ k)).lookup j = if j = k then none else l.lookup j := Timers.lookup_filter l k j

theorem lookup_set {β : Type} (l : List (Nat × β)) (k : Nat) (v : β) (j : Nat) :
    (l.map fun e => if e.1 = k then (k, v) else e).lookup j = if j = k then (l.lookup k).map fun _ => v else l.lookup j := by
  induction l with
  | nil => simp
  | cons a l ih =>
    obtain ⟨a1, a2⟩ := a
    by_cases h : a1 = k
    · subst h
      by_cases hj : j = a1
      · subst hj; simp [List.lookup]
      · have : (j == a1) = false := by simpa using hj
        simp only [List.map_cons, if_true, List.lookup, this, ih, hj, if_false]
    · by_cases hj : j = a1
      · subst hj
        simp [List.lookup, h]
      · have e1 : (j == a1) = false := by simpa using hj
        have e2 : (k == a1) = false := by simpa using Ne.symm h
        simp only [List.map_cons, h, if_false, List.lookup, e1, e2, ih]

structure Rel (s : App) (p : Spec) : Prop where
  next : s.nextCallback = p.next
  log : s.net.log = p.log
  inflight : s.net.inflight = p.waiting
  store : s.store = p.waiting
  cells : ∀ k, s.cells.lookup k = if k ∈ p.listening then
    (match p.ready.lookup k with | some r => some ⟨false, some r⟩ | none => some ⟨true, none⟩) else none
  wakes : ∀ k r, p.ready.lookup k = some r → k ∈ s.wakes
  ready : ∀ k r, p.ready.lookup k = some r → k ∈ p.listening ∧ k ∉ p.waiting
  lt : (∀ k ∈ p.waiting, k < p.next) ∧ ∀ k ∈ p.listening, k < p.next

theorem Rel.poll {s : App} {p : Spec} (h : Rel s p) (k : Nat) : Rel (poll k s) (p.take k) := by
  unfold Requests.poll Spec.take
  rw [h.cells k]
  by_cases hl : k ∈ p.listening
  · rw [if_pos hl]
    cases hr : p.ready.lookup k with
    | none =>
      dsimp only
      refine { h with cells := fun j => ?_ }
      dsimp only
      rw [lookup_set, h.cells k, if_pos hl, hr, h.cells j]
      by_cases hj : j = k
      · subst hj; simp [hl, hr]
      · simp [hj]
    | some r =>
      dsimp only
      refine { h with log := by simp [h.log], cells := fun j => ?_, wakes := fun j r' hj => ?_, ready := fun j r' hj => ?_,
                      lt := ⟨h.lt.1, fun j hj => h.lt.2 j (List.mem_filter.1 hj).1⟩ }
      · dsimp only
        rw [lookup_filter, lookup_filter, h.cells j]
        by_cases hj : j = k
        · subst hj; simp
        · simp [hj]
      · dsimp only at hj
        rw [lookup_filter] at hj
        by_cases e : j = k
        · simp [e] at hj
        · rw [if_neg e] at hj; exact h.wakes j r' hj
      · dsimp only at hj
        rw [lookup_filter] at hj
        by_cases e : j = k
        · simp [e] at hj
        · rw [if_neg e] at hj
          exact ⟨List.mem_filter.2 ⟨(h.ready j r' hj).1, by simpa using e⟩, (h.ready j r' hj).2⟩
  · rw [if_neg hl]
    cases hr : p.ready.lookup k with
    | none => exact h
    | some r => exact absurd (h.ready k r hr).1 hl

theorem not_ready {s : App} {p : Spec} (h : Rel s p) {k : Nat} (hk : k ∈ p.waiting) : p.ready.lookup k = none := by
  cases hr : p.ready.lookup k with
  | none => rfl
  | some r => exact absurd hk (h.ready k r hr).2

theorem Rel.step {pf : Platform} {write : Codec.JsJson → String} (hwr : pf.Writes write) {s : App} {p : Spec} (h : Rel s p) (e : Event)
    (hg : e.Good pf) (hb : p.next < 2 ^ 64) : Rel (step pf s e) (p.event pf write e) := by
  cases e with
  | call r =>
    have hs := send_good pf write hwr { s.net with log := s.net.log ++ [.start] } (k := s.nextCallback) (by rw [h.next]; exact hb) r hg
    simp only [Requests.step, call, Spec.event, hs]
    have hnl : p.next ∉ p.listening := fun hm => Nat.lt_irrefl _ (h.lt.2 _ hm)
    have hnr : p.ready.lookup p.next = none := by
      cases hr : p.ready.lookup p.next with
      | none => rfl
      | some r => exact absurd (h.ready _ r hr).1 hnl
    refine ⟨by simp [h.next], by simp [h.log, h.next], by simp [h.inflight, h.next], by simp [h.store, h.next], fun j => ?_, h.wakes, fun j r hj => ?_, ?_, ?_⟩
    · dsimp only
      rw [lookup_append, h.cells j, h.next]
      by_cases hj : j = p.next
      · subst hj; simp [hnl, hnr]
      · simp [hj]
    · obtain ⟨h1, h2⟩ := h.ready j r hj
      refine ⟨by simp [h1], ?_⟩
      have := h.lt.2 j h1
      simp [h2]
      omega
    · intro k hk
      simp only [List.mem_append, List.mem_singleton] at hk
      rcases hk with hk | rfl
      · have := h.lt.1 k hk; show k < p.next + 1; omega
      · show p.next < p.next + 1; omega
    · intro k hk
      simp only [List.mem_append, List.mem_singleton] at hk
      rcases hk with hk | rfl
      · have := h.lt.2 k hk; show k < p.next + 1; omega
      · show p.next < p.next + 1; omega
  | answer k out =>
    simp only [Requests.step, answer, Spec.event, h.inflight]
    by_cases hk : k ∈ p.waiting
    · rw [if_pos hk, if_pos hk]
      obtain ⟨v, hv, hr⟩ := reply_read pf out hg
      have hnr := not_ready h hk
      simp only [hv, wasmCallback, h.store, if_pos hk, hr, publish, h.cells k, hnr]
      by_cases hl : k ∈ p.listening
      · simp only [if_pos hl, if_true]
        refine ⟨h.next, by simp [h.log], rfl, rfl, fun j => ?_, fun j r hj => ?_, fun j r hj => ?_, ?_, h.lt.2⟩
        · dsimp only
          rw [lookup_set, lookup_append, h.cells k, h.cells j, if_pos hl, hnr]
          by_cases hj : j = k
          · subst hj; simp [hl, hnr]
          · simp [hj]
        · dsimp only at hj ⊢
          rw [lookup_append] at hj
          by_cases e : j = k
          · simp [e]
          · simp only [e, if_false, Option.or_none] at hj
            exact List.mem_append_left _ (h.wakes j r hj)
        · dsimp only at hj ⊢
          rw [lookup_append] at hj
          by_cases e : j = k
          · subst e; exact ⟨hl, by simp⟩
          · simp only [e, if_false, Option.or_none] at hj
            exact ⟨(h.ready j r hj).1, fun hm => (h.ready j r hj).2 (List.mem_filter.1 hm).1⟩
        · intro j hj
          exact h.lt.1 j (List.mem_filter.1 hj).1
      · simp only [if_neg hl]
        refine ⟨h.next, by simp [h.log], rfl, rfl, h.cells, h.wakes, fun j r hj => ?_, ?_, h.lt.2⟩
        · exact ⟨(h.ready j r hj).1, fun hm => (h.ready j r hj).2 (List.mem_filter.1 hm).1⟩
        · intro j hj
          exact h.lt.1 j (List.mem_filter.1 hj).1
    · rw [if_neg hk, if_neg hk]; exact h
  | wake k =>
    simp only [Requests.step, Spec.event]
    by_cases hk : k ∈ s.wakes
    · rw [if_pos hk]
      -- the wakes of other requests stay
      have hp := h.poll k
      have e : Requests.poll k { s with wakes := s.wakes.erase k } = { Requests.poll k s with wakes := s.wakes.erase k } := by
        unfold Requests.poll
        dsimp only
        split <;> rfl
      rw [e]
      refine { hp with wakes := fun j r hj => ?_ }
      dsimp only
      have hjk : j ≠ k := by
        rintro rfl
        unfold Spec.take at hj
        cases hr : p.ready.lookup j with
        | none => simp [hr] at hj
        | some r' => simp only [hr] at hj; rw [lookup_filter] at hj; simp at hj
      have := hp.wakes j r hj
      have hw : (Requests.poll k s).wakes = s.wakes := by unfold Requests.poll; split <;> rfl
      rw [hw] at this
      exact (List.mem_erase_of_ne hjk).2 this
    · rw [if_neg hk]
      unfold Spec.take
      cases hr : p.ready.lookup k with
      | none => exact h
      | some r => exact absurd (h.wakes k r hr) hk
  | poll k => exact h.poll k
  | drop k =>
    simp only [Requests.step, Spec.event]
    refine ⟨h.next, h.log, h.inflight, h.store, fun j => ?_, fun j r hj => ?_, fun j r hj => ?_, h.lt.1,
      fun j hj => h.lt.2 j (List.mem_filter.1 hj).1⟩
    · dsimp only
      rw [lookup_filter, lookup_filter, h.cells j]
      by_cases hj : j = k
      · subst hj; simp
      · simp [hj]
    · dsimp only at hj
      rw [lookup_filter] at hj
      by_cases e : j = k
      · simp [e] at hj
      · rw [if_neg e] at hj; exact h.wakes j r hj
    · dsimp only at hj
      rw [lookup_filter] at hj
      by_cases e : j = k
      · simp [e] at hj
      · rw [if_neg e] at hj
        exact ⟨List.mem_filter.2 ⟨(h.ready j r hj).1, by simpa using e⟩, (h.ready j r hj).2⟩

/-- The number of requests made. -/
def calls : List Event → Nat
  | [] => 0
  | .call _ :: es => calls es + 1
  | _ :: es => calls es

theorem event_next (pf : Platform) (write : Codec.JsJson → String) (p : Spec) (e : Event) :
    (p.event pf write e).next = p.next + calls [e] := by
  cases e <;> simp only [Spec.event, Spec.take, calls]
  all_goals first | rfl | (split <;> rfl)

theorem calls_cons (e : Event) (es : List Event) : calls (e :: es) = calls [e] + calls es := by
  cases e <;> simp [calls]; omega

theorem Rel.run {pf : Platform} {write : Codec.JsJson → String} (hwr : pf.Writes write) (es : List Event) {s : App} {p : Spec} (h : Rel s p)
    (hg : ∀ e ∈ es, e.Good pf) (hb : p.next + calls es < 2 ^ 64) : Rel (run pf s es) (es.foldl (Spec.event pf write) p) := by
  induction es generalizing s p with
  | nil => exact h
  | cons e es ih =>
    rw [calls_cons] at hb
    refine ih (h.step hwr e (hg e (by simp)) (by omega)) (fun x hx => hg x (by simp [hx])) ?_
    rw [event_next]
    omega

theorem rel_start (first : Nat) : Rel (start first) ⟨first, [], [], [], []⟩ :=
  ⟨rfl, rfl, rfl, rfl, by simp [start], by simp, by simp, by simp, by simp⟩

/-! ### The traces of the specification -/

def requestOf : Event → Option Request
  | .call r => some r
  | _ => none

def sentOf : Entry → Option (Nat × Wire)
  | .sent k w => some (k, w)
  | _ => none

def gotOf : Entry → Option Nat
  | .got k _ => some k
  | _ => none

def Entry.isStart : Entry → Bool
  | .start => true
  | _ => false

def Entry.isStop : Entry → Bool
  | .stop => true
  | _ => false

/-- What holds of the specification after `es`. -/
structure Inv (pf : Platform) (write : Codec.JsJson → String) (first : Nat) (es : List Event) (p : Spec) : Prop where
  next : p.next = first + (es.filterMap requestOf).length
  sents : p.log.filterMap sentOf = (((es.filterMap requestOf).map (wireOf write)).zipIdx first).map fun x => (x.2, x.1)
  counts : p.log.countP Entry.isStart = p.log.countP Entry.isStop + p.waiting.length
  nodup : p.waiting.Nodup
  sentW : ∀ k ∈ p.waiting, ∃ w, .sent k w ∈ p.log
  ready : ∀ k r, (k, r) ∈ p.ready → k ∈ p.listening ∧ k ∉ p.waiting ∧ (∃ w, .sent k w ∈ p.log) ∧ ∃ out, .answer k out ∈ es ∧ r = meaning pf out
  gots : (p.log.filterMap gotOf).Nodup
  gone : ∀ k ∈ p.log.filterMap gotOf, k ∉ p.listening ∧ k ∉ p.waiting ∧ k < p.next
  order : ∀ l1 k r l2, p.log = l1 ++ .got k r :: l2 → (∃ w, .sent k w ∈ l1) ∧ ∃ out, .answer k out ∈ es ∧ r = meaning pf out
  lt : (∀ k ∈ p.waiting, k < p.next) ∧ ∀ k ∈ p.listening, k < p.next
  fate : ∀ k, first ≤ k → k < p.next → .drop k ∉ es → k ∈ p.listening ∨ k ∈ p.log.filterMap gotOf
  open' : ∀ k ∈ p.listening, k ∈ p.waiting ∨ ∃ r, p.ready.lookup k = some r

theorem lookup_mem {β : Type} {l : List (Nat × β)} {k : Nat} {v : β} (h : l.lookup k = some v) : (k, v) ∈ l := by
  induction l with
  | nil => simp at h
  | cons a l ih =>
    obtain ⟨a1, a2⟩ := a
    simp only [List.lookup] at h
    split at h
    · rename_i e; simp at e h; simp [e, h]
    · exact List.mem_cons_of_mem _ (ih h)

theorem append_got {l l1 : List Entry} {k : Nat} {r : Res} {l2 : List Entry} {x : List Entry} (h : l ++ x = l1 ++ .got k r :: l2)
    (hx : ∀ k r, Entry.got k r ∉ x) : ∃ l2', l = l1 ++ .got k r :: l2' := by
  rcases List.append_eq_append_iff.1 h with ⟨a, ha, hb⟩ | ⟨a, ha, hb⟩
  · exact absurd (by rw [hb]; simp) (hx k r)
  · cases a with
    | nil =>
      simp only [List.nil_append] at hb
      exact absurd (by rw [← hb]; simp) (hx k r)
    | cons y a =>
      simp only [List.cons_append, List.cons.injEq] at hb
      exact ⟨a, by rw [ha, hb.1]⟩

theorem Inv.take {pf : Platform} {write : Codec.JsJson → String} {first : Nat} {es : List Event} {p : Spec}
    (h : Inv pf write first es p) (k : Nat) : Inv pf write first es (p.take k) := by
  unfold Spec.take
  cases hr : p.ready.lookup k with
  | none => exact h
  | some r =>
    obtain ⟨hl, hw, ⟨w, hs⟩, out, ho, hm⟩ := h.ready k r (lookup_mem hr)
    have hng : k ∉ p.log.filterMap gotOf := fun hg => (h.gone k hg).1 hl
    have hgl : (p.log ++ [Entry.got k r]).filterMap gotOf = p.log.filterMap gotOf ++ [k] := by simp [gotOf]
    refine { next := h.next, sents := by rw [← h.sents]; simp [sentOf], counts := ?_, nodup := h.nodup, sentW := fun j hj => ?_, ready := fun j r' hj => ?_, gots := ?_,
             gone := fun j hj => ?_, order := fun l1 j r' l2 he => ?_, lt := ⟨h.lt.1, fun j hj => h.lt.2 j (List.mem_filter.1 hj).1⟩, fate := fun j h1 h2 h3 => ?_, open' := fun j hj => ?_ }
    · simpa [List.countP_append, Entry.isStart, Entry.isStop, List.countP_cons] using h.counts
    · obtain ⟨w, hw⟩ := h.sentW j hj
      exact ⟨w, by simp [hw]⟩
    · obtain ⟨hj, hjk⟩ := List.mem_filter.1 hj
      obtain ⟨h1, h2, ⟨w, h3⟩, h4⟩ := h.ready j r' hj
      exact ⟨List.mem_filter.2 ⟨h1, by simpa using hjk⟩, h2, ⟨w, by simp [h3]⟩, h4⟩
    · dsimp only
      rw [hgl, List.nodup_append]
      exact ⟨h.gots, by simp, by rintro a ha b hb rfl; simp at hb; subst hb; exact hng ha⟩
    · dsimp only at hj ⊢
      rw [hgl] at hj
      simp only [List.mem_append, List.mem_singleton] at hj
      rcases hj with hj | rfl
      · obtain ⟨h1, h2⟩ := h.gone j hj
        exact ⟨fun hm => h1 (List.mem_filter.1 hm).1, h2⟩
      · exact ⟨by simp, hw, h.lt.2 _ hl⟩
    · dsimp only at he
      rcases List.append_eq_append_iff.1 he with ⟨a, ha, hb⟩ | ⟨a, ha, hb⟩
      · cases a with
        | nil =>
          simp only [List.nil_append, List.cons.injEq, Entry.got.injEq] at hb
          simp only [List.append_nil] at ha
          rw [ha, ← hb.1.1, ← hb.1.2]
          exact ⟨⟨w, hs⟩, out, ho, hm⟩
        | cons y a => simp at hb
      · cases a with
        | nil =>
          simp only [List.nil_append, List.cons.injEq, Entry.got.injEq] at hb
          simp only [List.append_nil] at ha
          rw [← ha, hb.1.1, hb.1.2]
          exact ⟨⟨w, hs⟩, out, ho, hm⟩
        | cons y a =>
          simp only [List.cons_append, List.cons.injEq] at hb
          exact h.order l1 j r' a (by rw [ha, hb.1])
    · dsimp only at h2 ⊢
      rw [hgl]
      by_cases e : j = k
      · right; simp [e]
      · rcases h.fate j h1 h2 h3 with h4 | h4
        · exact .inl (List.mem_filter.2 ⟨h4, by simpa using e⟩)
        · exact .inr (by simp [h4])
    · obtain ⟨hj, hjk⟩ := List.mem_filter.1 hj
      rcases h.open' j hj with h1 | ⟨r', h1⟩
      · exact .inl h1
      · refine .inr ⟨r', ?_⟩
        dsimp only
        rw [lookup_filter, if_neg (by simpa using hjk)]
        exact h1

/-- An event that is not a request and not a drop, and does nothing. -/
theorem Inv.skip {pf : Platform} {write : Codec.JsJson → String} {first : Nat} {es : List Event} {p : Spec}
    (h : Inv pf write first es p) (e : Event) (he : requestOf e = none) : Inv pf write first (es ++ [e]) p := by
  have hreq : (es ++ [e]).filterMap requestOf = es.filterMap requestOf := by simp [he]
  refine { next := by rw [hreq]; exact h.next, sents := by rw [hreq]; exact h.sents, counts := h.counts, nodup := h.nodup, sentW := h.sentW, ready := fun k r hk => ?_, gots := h.gots,
           gone := h.gone, order := fun l1 k r l2 he => ?_, lt := h.lt, fate := fun k h1 h2 h3 => h.fate k h1 h2 (fun hm => h3 (by simp [hm])), open' := h.open' }
  · obtain ⟨h1, h2, h3, out, h4, h5⟩ := h.ready k r hk
    exact ⟨h1, h2, h3, out, by simp [h4], h5⟩
  · obtain ⟨h1, out, h4, h5⟩ := h.order l1 k r l2 he
    exact ⟨h1, out, by simp [h4], h5⟩

theorem Inv.event {pf : Platform} {write : Codec.JsJson → String} {first : Nat} {es : List Event} {p : Spec}
    (h : Inv pf write first es p) (e : Event) : Inv pf write first (es ++ [e]) (p.event pf write e) := by
  cases e with
  | wake k => exact (h.skip (.wake k) rfl).take k
  | poll k => exact (h.skip (.poll k) rfl).take k
  | drop k =>
    have h := h.skip (.drop k) rfl
    simp only [Spec.event]
    refine { h with ready := fun j r hj => ?_, gone := fun j hj => ?_, lt := ⟨h.lt.1, fun j hj => h.lt.2 j (List.mem_filter.1 hj).1⟩, fate := fun j h1 h2 h3 => ?_, open' := fun j hj => ?_ }
    · obtain ⟨hj, hjk⟩ := List.mem_filter.1 hj
      obtain ⟨h1, h2⟩ := h.ready j r hj
      exact ⟨List.mem_filter.2 ⟨h1, by simpa using hjk⟩, h2⟩
    · obtain ⟨h1, h2⟩ := h.gone j hj
      exact ⟨fun hm => h1 (List.mem_filter.1 hm).1, h2⟩
    · rcases h.fate j h1 h2 h3 with h4 | h4
      · refine .inl (List.mem_filter.2 ⟨h4, ?_⟩)
        simp only [ne_eq, decide_eq_true_eq]
        rintro rfl
        exact h3 (by simp)
      · exact .inr h4
    · obtain ⟨hj, hjk⟩ := List.mem_filter.1 hj
      rcases h.open' j hj with h1 | ⟨r', h1⟩
      · exact .inl h1
      · refine .inr ⟨r', ?_⟩
        dsimp only
        rw [lookup_filter, if_neg (by simpa using hjk)]
        exact h1
  | answer k out =>
    have h := h.skip (.answer k out) rfl
    simp only [Spec.event]
    by_cases hk : k ∈ p.waiting
    · rw [if_pos hk]
      have hgl : (p.log ++ [Entry.stop]).filterMap gotOf = p.log.filterMap gotOf := by simp [gotOf]
      refine { next := h.next, sents := by rw [← h.sents]; simp [sentOf], counts := ?_, nodup := h.nodup.filter _, sentW := fun j hj => ?_, ready := fun j r hj => ?_,
               gots := by dsimp only; rw [hgl]; exact h.gots, gone := fun j hj => ?_, order := fun l1 j r l2 he => ?_,
               lt := ⟨fun j hj => h.lt.1 j (List.mem_filter.1 hj).1, h.lt.2⟩, fate := fun j h1 h2 h3 => ?_, open' := fun j hj => ?_ }
      · have hc := h.counts
        have hlen : p.waiting.length = (p.waiting.filter (· ≠ k)).length + 1 := by
          have : p.waiting.filter (· ≠ k) = p.waiting.erase k := by
            rw [h.nodup.erase_eq_filter k]; exact List.filter_congr fun x _ => by by_cases hx : x = k <;> simp [hx]
          rw [this, List.length_erase_of_mem hk]
          have := List.length_pos_of_mem hk
          omega
        simp only [List.countP_append, List.countP_cons, List.countP_nil, Entry.isStart, Entry.isStop] at hc ⊢
        simp only [Bool.false_eq_true, if_false, if_true]
        omega
      · obtain ⟨w, hw⟩ := h.sentW j (List.mem_filter.1 hj).1
        exact ⟨w, by simp [hw]⟩
      · have old : (j, r) ∈ p.ready → _ := h.ready j r
        have tr : (j, r) ∈ p.ready → j ∈ p.listening ∧ j ∉ p.waiting.filter (· ≠ k) ∧ (∃ w, Entry.sent j w ∈ p.log ++ [Entry.stop]) ∧
            ∃ out', Event.answer j out' ∈ es ++ [.answer k out] ∧ r = meaning pf out' := by
          intro hm
          obtain ⟨h1, h2, ⟨w, h3⟩, h4⟩ := old hm
          exact ⟨h1, fun hm => h2 (List.mem_filter.1 hm).1, ⟨w, by simp [h3]⟩, h4⟩
        dsimp only at hj
        by_cases hl : k ∈ p.listening
        · rw [if_pos hl] at hj
          simp only [List.mem_append, List.mem_singleton, Prod.mk.injEq] at hj
          rcases hj with hj | ⟨rfl, rfl⟩
          · exact tr hj
          · obtain ⟨w, hw⟩ := h.sentW j hk
            exact ⟨hl, by simp, ⟨w, by simp [hw]⟩, out, by simp, rfl⟩
        · rw [if_neg hl] at hj; exact tr hj
      · dsimp only at hj
        rw [hgl] at hj
        obtain ⟨h1, h2, h3⟩ := h.gone j hj
        exact ⟨h1, fun hm => h2 (List.mem_filter.1 hm).1, h3⟩
      · obtain ⟨l2', he'⟩ := append_got he (by simp)
        exact h.order l1 j r l2' he'
      · dsimp only; rw [hgl]; exact h.fate j h1 h2 h3
      · dsimp only at hj ⊢
        by_cases e : j = k
        · subst e
          right
          rw [if_pos hj, lookup_append]
          cases p.ready.lookup j with
          | none => exact ⟨_, by simp; rfl⟩
          | some r => exact ⟨r, by simp⟩
        · rcases h.open' j hj with h1 | ⟨r, h1⟩
          · exact .inl (List.mem_filter.2 ⟨h1, by simpa using e⟩)
          · right
            refine ⟨r, ?_⟩
            split
            · rw [lookup_append, h1]; rfl
            · exact h1
    · rw [if_neg hk]; exact h
  | call r =>
    simp only [Spec.event]
    have hreq : (es ++ [Event.call r]).filterMap requestOf = es.filterMap requestOf ++ [r] := by simp [requestOf]
    have hgl : (p.log ++ [Entry.start, .sent p.next (wireOf write r)]).filterMap gotOf = p.log.filterMap gotOf := by simp [gotOf]
    have hnw : p.next ∉ p.waiting := fun hm => Nat.lt_irrefl _ (h.lt.1 _ hm)
    refine { next := ?_, sents := ?_, counts := ?_, nodup := ?_, sentW := fun j hj => ?_, ready := fun j r' hj => ?_,
             gots := by dsimp only; rw [hgl]; exact h.gots, gone := fun j hj => ?_, order := fun l1 j r' l2 he => ?_, lt := ⟨fun j hj => ?_, fun j hj => ?_⟩,
             fate := fun j h1 h2 h3 => ?_, open' := fun j hj => ?_ }
    · dsimp only; rw [hreq, h.next]; simp; omega
    · dsimp only
      rw [hreq]
      simp only [List.filterMap_append, h.sents, List.map_append, List.zipIdx_append, List.length_map]
      simp [sentOf, h.next]
      rfl
    · have hc := h.counts
      simp only [List.countP_append, List.countP_cons, List.countP_nil, Entry.isStart, Entry.isStop, List.length_append] at hc ⊢
      simp only [Bool.false_eq_true, if_false, if_true, List.length_cons, List.length_nil]
      omega
    · rw [List.nodup_append]
      exact ⟨h.nodup, by simp, by rintro a ha b hb rfl; simp at hb; subst hb; exact hnw ha⟩
    · simp only [List.mem_append, List.mem_singleton] at hj
      rcases hj with hj | rfl
      · obtain ⟨w, hw⟩ := h.sentW j hj
        exact ⟨w, by simp [hw]⟩
      · exact ⟨wireOf write r, by simp⟩
    · obtain ⟨h1, h2, ⟨w, h3⟩, out, h4, h5⟩ := h.ready j r' hj
      have := h.lt.2 j h1
      refine ⟨by simp [h1], ?_, ⟨w, by simp [h3]⟩, out, by simp [h4], h5⟩
      simp [h2]; omega
    · dsimp only at hj ⊢
      rw [hgl] at hj
      obtain ⟨h1, h2, h3⟩ := h.gone j hj
      refine ⟨?_, ?_, by omega⟩
      · simp [h1]; omega
      · simp [h2]; omega
    · obtain ⟨l2', he'⟩ := append_got he (by simp)
      obtain ⟨h1, out, h4, h5⟩ := h.order l1 j r' l2' he'
      exact ⟨h1, out, by simp [h4], h5⟩
    · simp only [List.mem_append, List.mem_singleton] at hj
      rcases hj with hj | rfl
      · have := h.lt.1 j hj; show j < p.next + 1; omega
      · show p.next < p.next + 1; omega
    · simp only [List.mem_append, List.mem_singleton] at hj
      rcases hj with hj | rfl
      · have := h.lt.2 j hj; show j < p.next + 1; omega
      · show p.next < p.next + 1; omega
    · dsimp only at h2 ⊢
      rw [hgl]
      by_cases e : j = p.next
      · left; simp [e]
      · rcases h.fate j h1 (by omega) (fun hm => h3 (by simp [hm])) with h4 | h4
        · exact .inl (by simp [h4])
        · exact .inr h4
    · simp only [List.mem_append, List.mem_singleton] at hj ⊢
      rcases hj with hj | rfl
      · rcases h.open' j hj with h1 | h1
        · exact .inl (.inl h1)
        · exact .inr h1
      · exact .inl (.inr rfl)

theorem inv_run (pf : Platform) (write : Codec.JsJson → String) (first : Nat) (es : List Event) :
    Inv pf write first es (Spec.run pf write first es) := by
  unfold Spec.run
  induction es using List.reverseRecOn with
  | nil =>
    constructor <;> simp
  | append_singleton es e ih =>
    rw [List.foldl_append]
    exact ih.event e

end Verif.Host.Requests
