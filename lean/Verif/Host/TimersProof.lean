import Verif.Host.Timers
import Mathlib.Data.List.Nodup
import Mathlib.Tactic.Tauto
/-!
# C53: proofs
-/
namespace Verif.Host.Timers
open Verif.Codec
open Verif.Json (intToF64 f64ToInt f64ToInt_intToF64 rnd)

/-! ### Calls -/

theorem builds_js (b : Browser) (js : List Js) : Builds world b js (js.map Val.js) b := by
  induction js with
  | nil => exact .nil b
  | cons j js ih => exact .cons (o := world) b b j js _ ih

theorem fetch_call (lossy : List UInt8 → String) (b : Browser) (f : String) (params : List JsValue) (js : List Js)
    (hd : DenotesL params js) (hw : JsValue.WFL params) (hs : Ts.JsSafeL params) (hf : ¬ Ts.bom <+: strBytes f)
    (hl : f.utf8ByteSize + JsValue.wireLenL params < 2 ^ 32 - 100) (r : Val) (b' : Browser)
    (hc : world.call b .interval f (js.map Val.js) = (some r, b')) (v : JsValue) (ha : Arrives (world.read b' r) v)
    (hvw : v.WF) (hvs : Ts.JsSafe v) (hvl : v.wireLen + 1 < 2 ^ 32) : fetch lossy b f params = (.value v, b') := by
  have hlen : (build [.api, .get "interval", .call f params]).wireLen < 2 ^ 32 := by
    have e1 : "api".utf8ByteSize = 3 := by decide
    have e2 : "get".utf8ByteSize = 3 := by decide
    have e3 : "interval".utf8ByteSize = 8 := by decide
    have e4 : "call".utf8ByteSize = 4 := by decide
    simp only [build, Access.item, List.map, JsValue.wireLen, JsValue.wireLenL, e1, e2, e3, e4]
    omega
  have hwf : (build [.api, .get "interval", .call f params]).WF := by simp [build, Access.item, JsValue.WF, JsValue.WFL, hw]
  have hsafe : Ts.JsSafe (build [.api, .get "interval", .call f params]) := by
    have e1 : ¬ Ts.bom <+: strBytes "api" := by decide
    have e2 : ¬ Ts.bom <+: strBytes "get" := by decide
    have e3 : ¬ Ts.bom <+: strBytes "interval" := by decide
    have e4 : ¬ Ts.bom <+: strBytes "call" := by decide
    simp only [build, Access.item, List.map, Ts.JsSafe, Ts.JsSafeL]
    exact ⟨⟨e1, trivial⟩, ⟨e2, e3, trivial⟩, ⟨e4, hf, hs⟩, trivial⟩
  have hcall := Does.call (o := world) f params js _ b b .interval hd (builds_js b js)
  rw [hc] at hcall
  have hchain : Chain world [.api, .get "interval", .call f params] b world.null (some r) b' :=
    .cons _ _ b b _ _ .api _ (.api b _) (.cons _ _ b b _ _ .interval _ (.get (o := world) "interval" b .api)
      (.cons _ _ _ _ _ _ r _ hcall (.nil _ _)))
  obtain ⟨hsnap, -⟩ := toSnapshot_eq _ hlen
  have := (C51_chain_partial world lossy [.api, .get "interval", .call f params] (by simp [Access.Plain]) hwf hsafe hlen
    (encV (build [.api, .get "interval", .call f params])) 0 _ ⟨_, [], hsnap, by simp, Nat.zero_le _, rfl⟩ b _ _ hchain).2 r v rfl ha hvw hvs hvl
  simp only [fetch, hsnap]
  exact this

theorem float_int {i : Int} (h0 : -2 ^ 53 < i) (h : i < 2 ^ 53) : f64ToInt (-2 ^ 63) (2 ^ 63 - 1) (intToF64 i) = i := by
  rw [f64ToInt_intToF64 (by omega)]
  have hr : rnd i.natAbs = i.natAbs := by
    unfold rnd
    rw [if_pos]
    by_cases hz : i.natAbs = 0
    · simp [hz]
    · have : i.natAbs.log2 < 53 := (Nat.log2_lt hz).2 (by omega)
      omega
  simp only [hr]
  split <;> split <;> omega

theorem int32_nat {n : Nat} (h : n < 2 ^ 31) : (Int32.ofInt n).toInt = n :=
  Int32.toInt_ofInt_of_le (by omega) (by omega)

theorem fetch_set (lossy : List UInt8 → String) (b : Browser) (rep : Bool) (d : UInt32) {k : Nat} (hn : b.next < 2 ^ 31) (hk : k < 2 ^ 64) :
    fetch lossy b (if rep then "interval_set" else "timeout_set") [.u32 d, .u64 (UInt64.ofNat k)] =
      (.value (.i32 (Int32.ofInt b.next)), b.set rep (delay (intToF64 d.toNat)) k) := by
  have hk' : (UInt64.ofNat k).toNat = k := by rw [UInt64.toNat_ofNat']; omega
  have ha : Arrives (.num (intToF64 (b.next : Int))) (.i32 (Int32.ofInt b.next)) := by
    have := Arrives.int (Int32.ofInt b.next)
    rwa [int32_nat hn] at this
  have hd : DenotesL [.u32 d, .u64 (UInt64.ofNat k)] [.num (intToF64 d.toNat), .bigint (UInt64.ofNat k).toNat] :=
    .cons _ _ _ _ (.u32 d) (.cons _ _ _ _ (.u64 _) .nil)
  cases rep
  · refine fetch_call lossy b "timeout_set" _ _ hd (by simp [JsValue.WFL, JsValue.WF]) (by simp [Ts.JsSafeL, Ts.JsSafe]) (by decide) ?_
      (.js (.num (intToF64 b.next))) _ ?_ _ ha (by simp [JsValue.WF]) (by simp [Ts.JsSafe]) (by simp [JsValue.wireLen])
    · have e1 : "timeout_set".utf8ByteSize = 11 := by decide
      simp only [JsValue.wireLenL, JsValue.wireLen, e1]; omega
    · simp [world, hk']
  · refine fetch_call lossy b "interval_set" _ _ hd (by simp [JsValue.WFL, JsValue.WF]) (by simp [Ts.JsSafeL, Ts.JsSafe]) (by decide) ?_
      (.js (.num (intToF64 b.next))) _ ?_ _ ha (by simp [JsValue.WF]) (by simp [Ts.JsSafe]) (by simp [JsValue.wireLen])
    · have e1 : "interval_set".utf8ByteSize = 12 := by decide
      simp only [JsValue.wireLenL, JsValue.wireLen, e1]; omega
    · simp [world, hk']

theorem fetch_clear (lossy : List UInt8 → String) (b : Browser) (i : Int32) :
    fetch lossy b "interval_clear" [.i32 i] = (.value .undefined, b.clear i.toInt) := by
  have h1 := i.le_toInt
  have h2 := i.toInt_lt
  refine fetch_call lossy b "interval_clear" [.i32 i] [.num (intToF64 i.toInt)] (.cons _ _ _ _ (.i32 i) .nil) (by simp [JsValue.WFL, JsValue.WF])
    (by simp [Ts.JsSafeL, Ts.JsSafe]) (by decide) ?_ (.js .undefined) _ ?_ .undefined .undefined (by simp [JsValue.WF]) (by simp [Ts.JsSafe])
    (by simp [JsValue.wireLen])
  · have e1 : "interval_clear".utf8ByteSize = 14 := by decide
    simp only [JsValue.wireLenL, JsValue.wireLen, e1]; omega
  · simp only [world, List.map, if_true]
    rw [float_int (by omega) (by omega)]

theorem delay_eq {d : UInt32} (h : d.toNat < 2 ^ 31) : delay (intToF64 d.toNat) = d.toNat := by
  unfold delay
  rw [float_int (by omega) (by omega)]
  omega

theorem delay_long {d : UInt32} (h : 2 ^ 31 ≤ d.toNat) : delay (intToF64 d.toNat) = 0 := by
  unfold delay
  have := d.toNat_lt
  rw [float_int (by omega) (by omega)]
  omega

/-! ### The relation between the model and the specification -/

/-- A timer without its id. -/
def tkey (t : Timer) : Nat × Int × Option Nat := (t.callback, t.due, t.every)
/-- The same of the specification. -/
def pkey (x : Pending) : Nat × Int × Option Nat := (x.k, x.due, x.every)

def keys (l : List (Nat × Int32)) : List Nat := l.map (·.1)

/-- `fl` is the detached callback that is running, if one is. -/
structure Rel (fl : Option Nat) (s : App) (p : Spec) : Prop where
  now : s.browser.now = p.now
  next : s.nextCallback = p.next
  held : keys s.held = p.held
  log : s.log = p.log
  missing : s.missing = []
  timers : s.browser.timers.map tkey = p.pending.map pkey
  cbs : (s.browser.timers.map (·.callback)).Nodup
  ids : ∀ t ∈ s.browser.timers, t.id < s.browser.next ∧ t.callback < s.nextCallback
  own : ∀ x ∈ p.pending, if x.mine then x.k ∈ keys s.held else x.k ∈ keys s.boxes ∧ x.every = none
  res : ∀ r ∈ s.held ++ s.boxes, r.1 < s.nextCallback ∧ r.2.toInt < s.browser.next ∧
    ∀ t ∈ s.browser.timers, ((t.id : Int) = r.2.toInt ↔ t.callback = r.1)
  nodup : (keys s.held ++ keys s.boxes).Nodup
  store : ∀ k kind, s.store.lookup k = some kind ↔ (kind = .user ∧ k ∈ keys s.held) ∨ (kind = .detached ∧ k ∈ keys s.boxes)
  flight : ∀ k ∈ keys s.boxes, some k = fl ∨ ∃ x ∈ p.pending, x.k = k ∧ x.mine = false

theorem lookup_append {β : Type} (l : List (Nat × β)) (k : Nat) (v : β) (j : Nat) :
    (l ++ [(k, v)]).lookup j = (l.lookup j).or (if j = k then some v else none) := by
  induction l with
  | nil =>
    by_cases h : j = k
    · simp [List.lookup, h]
    · have : (j == k) = false := by simpa using h
      simp [List.lookup, h, this]
  | cons a l ih =>
    obtain ⟨a1, a2⟩ := a
    simp only [List.cons_append, List.lookup]
    split <;> simp [ih]

theorem lookup_filter {β : Type} (l : List (Nat × β)) (k j : Nat) :
    (l.filter (·.1 ≠ k)).lookup j = if j = k then none else l.lookup j := by
  induction l with
  | nil => simp
  | cons a l ih =>
    obtain ⟨a1, a2⟩ := a
    by_cases h : a1 = k
    · subst h
      rw [List.filter_cons_of_neg (by simp), ih]
      by_cases hj : j = a1
      · simp [hj]
      · have : (j == a1) = false := by simpa using hj
        simp [hj, List.lookup, this]
    · rw [List.filter_cons_of_pos (by simpa using h)]
      simp only [List.lookup]
      by_cases hj : j = a1
      · subst hj; simp [h]
      · have : (j == a1) = false := by simpa using hj
        rw [this]; exact ih

theorem lookup_mem {l : List (Nat × Int32)} {k : Nat} {i : Int32} (h : l.lookup k = some i) : (k, i) ∈ l := by
  induction l with
  | nil => simp at h
  | cons a l ih =>
    obtain ⟨a1, a2⟩ := a
    simp only [List.lookup] at h
    split at h
    · rename_i e; simp at e h; simp [e, h]
    · exact List.mem_cons_of_mem _ (ih h)

theorem lookup_keys {l : List (Nat × Int32)} {k : Nat} : k ∈ keys l ↔ ∃ i, l.lookup k = some i := by
  induction l with
  | nil => simp [keys]
  | cons a l ih =>
    obtain ⟨a1, a2⟩ := a
    by_cases h : k = a1
    · subst h; simp [keys, List.lookup]
    · have : (k == a1) = false := by simpa using h
      simp only [keys, List.map_cons, List.mem_cons, List.lookup, this] at ih ⊢
      simp [h, ih]

theorem keys_filter (l : List (Nat × Int32)) (k j : Nat) : j ∈ keys (l.filter (·.1 ≠ k)) ↔ j ≠ k ∧ j ∈ keys l := by
  rw [lookup_keys, lookup_keys, lookup_filter]
  by_cases h : j = k <;> simp [h]

theorem keys_append (l : List (Nat × Int32)) (r : Nat × Int32) : keys (l ++ [r]) = keys l ++ [r.1] := by simp [keys]

/-- Every pending timer has a callback below the next. -/
theorem Rel.key_lt {fl : Option Nat} {s : App} {p : Spec} (h : Rel fl s p) {k : Nat} (hk : k ∈ keys s.held ∨ k ∈ keys s.boxes) : k < s.nextCallback := by
  have : ∃ i, (k, i) ∈ s.held ++ s.boxes := by
    rcases hk with hk | hk
    · obtain ⟨i, hi⟩ := lookup_keys.1 hk; exact ⟨i, List.mem_append_left _ (lookup_mem hi)⟩
    · obtain ⟨i, hi⟩ := lookup_keys.1 hk; exact ⟨i, List.mem_append_right _ (lookup_mem hi)⟩
  obtain ⟨i, hi⟩ := this
  exact (h.res _ hi).1

/-- A timer is set: `mine` says who keeps its resource. -/
theorem rel_set (lossy : List UInt8 → String) {fl : Option Nat} {s : App} {p : Spec} (h : Rel fl s p) (rep mine : Bool) (hrm : mine = false → rep = false)
    {d : UInt32} (hd : d.toNat < 2 ^ 31)
    (hn : s.browser.next < 2 ^ 31) (hk : s.nextCallback < 2 ^ 64) :
    let r := setTimer lossy (if rep then "interval_set" else "timeout_set") d (if mine then .user else .detached)
      { s with log := s.log ++ [.set s.browser.now s.nextCallback d.toNat rep] }
    Rel fl (if mine then { r.1 with held := r.1.held ++ [(s.nextCallback, r.2)] } else { r.1 with boxes := r.1.boxes ++ [(s.nextCallback, r.2)] })
      { p with next := p.next + 1, pending := p.pending ++ [⟨p.next, p.now + d.toNat, if rep then some d.toNat else none, mine⟩],
               held := if mine then p.held ++ [p.next] else p.held, log := p.log ++ [.set p.now p.next d.toNat rep] } := by
  simp only [setTimer, fetch_set lossy s.browser rep d hn hk, delay_eq hd]
  have hfresh : s.nextCallback ∉ keys s.held ∧ s.nextCallback ∉ keys s.boxes :=
    ⟨fun hm => Nat.lt_irrefl _ (h.key_lt (.inl hm)), fun hm => Nat.lt_irrefl _ (h.key_lt (.inr hm))⟩
  have hid : (Int32.ofInt (s.browser.next : Int)).toInt = s.browser.next := int32_nat hn
  have htimers : ((s.browser.set rep d.toNat s.nextCallback).timers.map tkey) =
      (p.pending ++ [(⟨p.next, p.now + d.toNat, if rep then some d.toNat else none, mine⟩ : Pending)]).map pkey := by
    simp [Browser.set, h.timers, tkey, pkey, h.now, h.next]
  have hcbs : ((s.browser.set rep d.toNat s.nextCallback).timers.map (·.callback)).Nodup := by
    simp only [Browser.set, List.map_append, List.map_cons, List.map_nil]
    rw [List.nodup_append]
    refine ⟨h.cbs, by simp, ?_⟩
    intro a ha b hb
    simp only [List.mem_singleton] at hb
    obtain ⟨t, ht, rfl⟩ := List.mem_map.1 ha
    have := (h.ids t ht).2
    omega
  have hids : ∀ t ∈ (s.browser.set rep d.toNat s.nextCallback).timers,
      t.id < (s.browser.set rep d.toNat s.nextCallback).next ∧ t.callback < s.nextCallback + 1 := by
    intro t ht
    simp only [Browser.set, List.mem_append, List.mem_singleton] at ht ⊢
    rcases ht with ht | rfl
    · have := h.ids t ht; omega
    · simp
  have hresOld : ∀ r ∈ s.held ++ s.boxes, r.1 < s.nextCallback + 1 ∧ r.2.toInt < (s.browser.set rep d.toNat s.nextCallback).next ∧
      ∀ t ∈ (s.browser.set rep d.toNat s.nextCallback).timers, ((t.id : Int) = r.2.toInt ↔ t.callback = r.1) := by
    intro r hr
    obtain ⟨h1, h2, h3⟩ := h.res r hr
    refine ⟨by omega, by simp only [Browser.set]; omega, ?_⟩
    intro t ht
    simp only [Browser.set, List.mem_append, List.mem_singleton] at ht
    rcases ht with ht | rfl
    · exact h3 t ht
    · constructor <;> intro e <;> simp only at e <;> omega
  have hresNew : s.nextCallback < s.nextCallback + 1 ∧ (Int32.ofInt (s.browser.next : Int)).toInt < (s.browser.set rep d.toNat s.nextCallback).next ∧
      ∀ t ∈ (s.browser.set rep d.toNat s.nextCallback).timers,
        ((t.id : Int) = (Int32.ofInt (s.browser.next : Int)).toInt ↔ t.callback = s.nextCallback) := by
    refine ⟨by omega, by rw [hid]; simp only [Browser.set]; omega, ?_⟩
    intro t ht
    rw [hid]
    simp only [Browser.set, List.mem_append, List.mem_singleton] at ht
    rcases ht with ht | rfl
    · have := h.ids t ht
      constructor <;> intro e <;> omega
    · simp
  have hstore : ∀ (kind : Kind) (k : Nat) (kind' : Kind), (s.store ++ [(s.nextCallback, kind)]).lookup k = some kind' ↔
      ((kind' = .user ∧ k ∈ keys s.held) ∨ (kind' = .detached ∧ k ∈ keys s.boxes)) ∨ (kind' = kind ∧ k = s.nextCallback) := by
    intro kind k kind'
    rw [lookup_append]
    by_cases hkn : k = s.nextCallback
    · have hnone : s.store.lookup k = none := by
        cases hl : s.store.lookup k with
        | none => rfl
        | some x =>
          rcases (h.store k x).1 hl with ⟨-, hm⟩ | ⟨-, hm⟩
          · exact absurd (hkn ▸ hm) hfresh.1
          · exact absurd (hkn ▸ hm) hfresh.2
      rw [hnone, if_pos hkn, hkn]
      simp only [Option.none_or, Option.some.injEq, hfresh.1, hfresh.2, and_false, or_false, false_or, and_true]
      exact eq_comm
    · rw [if_neg hkn, Option.or_none, h.store]
      simp [hkn]
  cases mine with
  | true =>
    simp only [if_true]
    refine ⟨h.now, by simp [h.next], by simp [keys_append, h.held, h.next], by simp [h.log, h.now, h.next], h.missing, htimers, hcbs, hids, ?_, ?_, ?_, ?_, ?_⟩
    · intro x hx
      simp only [List.mem_append, List.mem_singleton] at hx
      rcases hx with hx | rfl
      · have := h.own x hx
        split <;> rename_i hm <;> simp only [hm] at this
        · simp only [keys_append, List.mem_append]; exact .inl this
        · exact this
      · simp [keys_append, h.next]
    · intro r hr
      simp only [List.mem_append, List.mem_singleton] at hr
      rcases hr with (hr | rfl) | hr
      · exact hresOld r (List.mem_append_left _ hr)
      · exact hresNew
      · exact hresOld r (List.mem_append_right _ hr)
    · have := h.nodup
      rw [keys_append]
      rw [List.nodup_append] at this ⊢
      refine ⟨?_, this.2.1, ?_⟩
      · rw [List.nodup_append]
        refine ⟨this.1, by simp, ?_⟩
        intro a ha b hb e
        simp only [List.mem_singleton] at hb
        subst e hb
        exact hfresh.1 ha
      · intro a ha b hb e
        simp only [List.mem_append, List.mem_singleton] at ha
        subst e
        rcases ha with ha | rfl
        · exact this.2.2 a ha a hb rfl
        · exact hfresh.2 hb
    · intro k kind
      rw [hstore .user k kind, keys_append]
      simp only [List.mem_append, List.mem_singleton]
      tauto
    · intro k hk
      rcases h.flight k hk with e | ⟨x, hx, e⟩
      · exact .inl e
      · exact .inr ⟨x, List.mem_append_left _ hx, e⟩
  | false =>
    have hr0 := hrm rfl
    simp only [Bool.false_eq_true, if_false]
    refine ⟨h.now, by simp [h.next], by simp [h.held], by simp [h.log, h.now, h.next], h.missing, htimers, hcbs, hids, ?_, ?_, ?_, ?_, ?_⟩
    · intro x hx
      simp only [List.mem_append, List.mem_singleton] at hx
      rcases hx with hx | rfl
      · have := h.own x hx
        split <;> rename_i hm <;> simp only [hm] at this
        · exact this
        · simp only [keys_append, List.mem_append]; exact ⟨.inl this.1, this.2⟩
      · simp [keys_append, h.next, hr0]
    · intro r hr
      simp only [List.mem_append, List.mem_singleton] at hr
      rcases hr with hr | hr | rfl
      · exact hresOld r (List.mem_append_left _ hr)
      · exact hresOld r (List.mem_append_right _ hr)
      · exact hresNew
    · have := h.nodup
      rw [keys_append, ← List.append_assoc]
      rw [List.nodup_append]
      refine ⟨this, by simp, ?_⟩
      intro a ha b hb e
      simp only [List.mem_singleton] at hb
      subst e hb
      rcases List.mem_append.1 ha with ha | ha
      · exact hfresh.1 ha
      · exact hfresh.2 ha
    · intro k kind
      rw [hstore .detached k kind, keys_append]
      simp only [List.mem_append, List.mem_singleton]
      tauto
    · intro k hk
      rw [keys_append, List.mem_append, List.mem_singleton] at hk
      rcases hk with hk | rfl
      · rcases h.flight k hk with e | ⟨x, hx, e⟩
        · exact .inl e
        · exact .inr ⟨x, List.mem_append_left _ hx, e⟩
      · exact .inr ⟨_, List.mem_append_right _ (List.mem_singleton.2 rfl), h.next.symm, rfl⟩

theorem filter_keys_id {l : List (Nat × Int32)} {k : Nat} (h : k ∉ keys l) : l.filter (·.1 ≠ k) = l := by
  rw [List.filter_eq_self]
  intro r hr
  simp only [ne_eq, decide_not, Bool.not_eq_eq_eq_not, Bool.not_true, decide_eq_false_iff_not]
  intro e
  exact h (List.mem_map.2 ⟨r, hr, e⟩)

theorem timers_filter {ts : List Timer} {ps : List Pending} (h : ts.map tkey = ps.map pkey) (k : Nat) :
    (ts.filter (·.callback ≠ k)).map tkey = (ps.filter (·.k ≠ k)).map pkey := by
  have e1 : ts.filter (·.callback ≠ k) = ts.filter ((fun q : Nat × Int × Option Nat => decide (q.1 ≠ k)) ∘ tkey) := rfl
  have e2 : ps.filter (·.k ≠ k) = ps.filter ((fun q : Nat × Int × Option Nat => decide (q.1 ≠ k)) ∘ pkey) := rfl
  rw [e1, e2, ← List.filter_map, ← List.filter_map, h]

theorem clear_eq {fl : Option Nat} {s : App} {p : Spec} (h : Rel fl s p) {k : Nat} {i : Int32} (hr : (k, i) ∈ s.held ++ s.boxes) :
    s.browser.clear i.toInt = { s.browser with timers := s.browser.timers.filter (·.callback ≠ k) } := by
  unfold Browser.clear
  congr 1
  apply List.filter_congr
  intro t ht
  have := (h.res _ hr).2.2 t ht
  simp only at this
  simp [this]

theorem rel_log {fl : Option Nat} {s : App} {p : Spec} (h : Rel fl s p) (e : Entry) :
    Rel fl { s with log := s.log ++ [e] } { p with log := p.log ++ [e] } :=
  ⟨h.now, h.next, h.held, by simp [h.log], h.missing, h.timers, h.cbs, h.ids, h.own, h.res, h.nodup, h.store, h.flight⟩

/-- A resource is dropped. -/
theorem rel_remove (lossy : List UInt8 → String) {fl fl' : Option Nat} {s : App} {p : Spec} (h : Rel fl s p) {k : Nat} {i : Int32}
    (hr : (k, i) ∈ s.held ++ s.boxes) (hfl : ∀ j, j ≠ k → some j = fl → some j = fl') :
    Rel fl' { dropTimer lossy k i s with held := s.held.filter (·.1 ≠ k), boxes := s.boxes.filter (·.1 ≠ k) }
      { p with pending := p.pending.filter (·.k ≠ k), held := p.held.filter (· ≠ k) } := by
  simp only [dropTimer, fetch_clear, clear_eq h hr]
  have hsub : ∀ r, r ∈ s.held.filter (·.1 ≠ k) ++ s.boxes.filter (·.1 ≠ k) → r ∈ s.held ++ s.boxes := by
    intro r hr
    simp only [List.mem_append, List.mem_filter] at hr ⊢
    tauto
  have hheld : keys (s.held.filter (·.1 ≠ k)) = p.held.filter (· ≠ k) := by
    rw [← h.held, keys, keys, List.filter_map]; rfl
  refine ⟨h.now, h.next, hheld, h.log, h.missing, timers_filter h.timers k, ?_, ?_, ?_, ?_, ?_, ?_, ?_⟩
  · exact h.cbs.sublist (List.filter_sublist.map _)
  · intro t ht
    exact h.ids t (List.mem_filter.1 ht).1
  · intro x hx
    obtain ⟨hx, hxk⟩ := List.mem_filter.1 hx
    have hxk : x.k ≠ k := by simpa using hxk
    have := h.own x hx
    split <;> rename_i hm <;> simp only [hm] at this
    · exact (keys_filter _ _ _).2 ⟨hxk, this⟩
    · exact ⟨(keys_filter _ _ _).2 ⟨hxk, this.1⟩, this.2⟩
  · intro r hr
    obtain ⟨h1, h2, h3⟩ := h.res r (hsub r hr)
    exact ⟨h1, h2, fun t ht => h3 t (List.mem_filter.1 ht).1⟩
  · exact h.nodup.sublist ((List.filter_sublist.map _).append (List.filter_sublist.map _))
  · intro j kind
    rw [lookup_filter, keys_filter, keys_filter]
    by_cases hj : j = k
    · simp [hj]
    · rw [if_neg hj, h.store]; simp [hj]
  · intro j hj
    obtain ⟨hjk, hj⟩ := (keys_filter _ _ _).1 hj
    rcases h.flight j hj with e | ⟨x, hx, e⟩
    · exact .inl (hfl j hjk e)
    · refine .inr ⟨x, List.mem_filter.2 ⟨hx, ?_⟩, e⟩
      rw [e.1]; simpa using hjk

theorem not_both {fl : Option Nat} {s : App} {p : Spec} (h : Rel fl s p) {k : Nat} (h1 : k ∈ keys s.held) (h2 : k ∈ keys s.boxes) : False :=
  (List.nodup_append.1 h.nodup).2.2 k h1 k h2 rfl

/-- One operation. -/
theorem rel_op (lossy : List UInt8 → String) {fl : Option Nat} {s : App} {p : Spec} (h : Rel fl s p) (o : Op) (ho : o.Short)
    (hn : s.browser.next < 2 ^ 31) (hk : s.nextCallback < 2 ^ 64) : Rel fl (doOp lossy s o) (p.op o) := by
  cases o with
  | interval d => exact rel_set lossy h true true (by simp) ho hn hk
  | timeout d => exact rel_set lossy h false true (by simp) ho hn hk
  | detach d => exact rel_set lossy h false false (by simp) ho hn hk
  | drop k =>
    simp only [doOp, Spec.op]
    cases hl : s.held.lookup k with
    | none =>
      have hkn : k ∉ p.held := by rw [← h.held, lookup_keys]; simp [hl]
      rw [if_neg hkn]
      exact h
    | some i =>
      have hkh : k ∈ keys s.held := lookup_keys.2 ⟨i, hl⟩
      have hkb : k ∉ keys s.boxes := fun hb => not_both h hkh hb
      rw [if_pos (h.held ▸ hkh)]
      have := rel_log (rel_remove lossy (fl' := fl) h (List.mem_append_left _ (lookup_mem hl)) (fun _ _ e => e)) (.dropped k)
      rw [filter_keys_id hkb] at this
      simp only [dropTimer] at this ⊢
      exact this

/-- The counters after an operation. -/
theorem op_next (lossy : List UInt8 → String) (s : App) (o : Op) (hn : s.browser.next < 2 ^ 31) (hk : s.nextCallback < 2 ^ 64) :
    s.browser.next ≤ (doOp lossy s o).browser.next ∧ (doOp lossy s o).browser.next ≤ s.browser.next + 1 ∧
    s.nextCallback ≤ (doOp lossy s o).nextCallback ∧ (doOp lossy s o).nextCallback ≤ s.nextCallback + 1 ∧
    (doOp lossy s o).browser.now = s.browser.now := by
  cases o with
  | interval d =>
    have := fetch_set lossy s.browser true d hn hk
    simp only [if_true] at this
    simp [doOp, setTimer, this, Browser.set]
  | timeout d =>
    have := fetch_set lossy s.browser false d hn hk
    simp only [Bool.false_eq_true, if_false] at this
    simp [doOp, setTimer, this, Browser.set]
  | detach d =>
    have := fetch_set lossy s.browser false d hn hk
    simp only [Bool.false_eq_true, if_false] at this
    simp [doOp, setTimer, this, Browser.set]
  | drop k =>
    simp only [doOp]
    cases s.held.lookup k with
    | none => simp
    | some i => simp [dropTimer, fetch_clear, Browser.clear]

/-- Operations, and what they do not change. -/
theorem rel_ops (lossy : List UInt8 → String) {fl : Option Nat} (ops : List Op) : ∀ {s : App} {p : Spec}, Rel fl s p → (∀ o ∈ ops, o.Short) →
    s.browser.next + ops.length ≤ 2 ^ 31 → s.nextCallback + ops.length ≤ 2 ^ 64 →
    Rel fl (ops.foldl (doOp lossy) s) (ops.foldl Spec.op p) ∧
    s.browser.next ≤ (ops.foldl (doOp lossy) s).browser.next ∧ (ops.foldl (doOp lossy) s).browser.next ≤ s.browser.next + ops.length ∧
    s.nextCallback ≤ (ops.foldl (doOp lossy) s).nextCallback ∧ (ops.foldl (doOp lossy) s).nextCallback ≤ s.nextCallback + ops.length ∧
    (ops.foldl (doOp lossy) s).browser.now = s.browser.now := by
  induction ops with
  | nil => intro s p h _ _ _; exact ⟨h, by simp⟩
  | cons o ops ih =>
    intro s p h hs hn hk
    simp only [List.length_cons] at hn hk
    have h1 := rel_op lossy h o (hs o (by simp)) (by omega) (by omega)
    obtain ⟨a, b, c, d, e⟩ := op_next lossy s o (by omega) (by omega)
    obtain ⟨r, a', b', c', d', e'⟩ := ih h1 (fun o ho => hs o (List.mem_cons_of_mem _ ho)) (by omega) (by omega)
    simp only [List.foldl_cons, List.length_cons]
    exact ⟨r, by omega, by omega, by omega, by omega, by rw [e', e]⟩

/-- Operations set no timer with an old number. -/
theorem spec_ops_gone (ops : List Op) (k : Nat) : ∀ (p : Spec), k < p.next → (∀ x ∈ p.pending, x.k ≠ k) →
    ∀ x ∈ (ops.foldl Spec.op p).pending, x.k ≠ k := by
  induction ops with
  | nil => intro p _ h; exact h
  | cons o ops ih =>
    intro p hk h
    refine ih _ ?_ ?_
    · cases o <;> simp only [Spec.op] <;> (try split) <;> first | exact hk | exact Nat.lt_succ_of_lt hk
    · intro x hx
      cases o <;> simp only [Spec.op, List.mem_append, List.mem_singleton] at hx
      · rcases hx with hx | rfl
        · exact h x hx
        · simp only; omega
      · rcases hx with hx | rfl
        · exact h x hx
        · simp only; omega
      · rcases hx with hx | rfl
        · exact h x hx
        · simp only; omega
      · split at hx
        · exact h x (List.mem_filter.1 hx).1
        · exact h x hx

theorem find_rel {ts : List Timer} {ps : List Pending} (h : ts.map tkey = ps.map pkey) (k : Nat) :
    (ts.find? (·.callback = k)).map tkey = (ps.find? (·.k = k)).map pkey := by
  have e1 := List.find?_map (l := ts) (p := fun q : Nat × Int × Option Nat => decide (q.1 = k)) (f := tkey)
  have e2 := List.find?_map (l := ps) (p := fun q : Nat × Int × Option Nat => decide (q.1 = k)) (f := pkey)
  rw [h, e2] at e1
  exact e1.symm

/-- A pending timer has a resource. -/
theorem Rel.resource {fl : Option Nat} {s : App} {p : Spec} (h : Rel fl s p) {x : Pending} (hx : x ∈ p.pending) :
    ∃ i, (x.k, i) ∈ s.held ++ s.boxes := by
  have := h.own x hx
  by_cases hm : x.mine
  · rw [if_pos hm] at this
    obtain ⟨i, hi⟩ := lookup_keys.1 this
    exact ⟨i, List.mem_append_left _ (lookup_mem hi)⟩
  · rw [if_neg hm] at this
    obtain ⟨i, hi⟩ := lookup_keys.1 this.1
    exact ⟨i, List.mem_append_right _ (lookup_mem hi)⟩

/-- A timeout fires: it is not pending any more. -/
theorem rel_pop {fl fl' : Option Nat} {s : App} {p : Spec} (h : Rel fl s p) (k : Nat)
    (hfl : ∀ j ∈ keys s.boxes, j ≠ k → some j = fl → some j = fl') (hk : k ∈ keys s.boxes → some k = fl') :
    Rel fl' { s with browser := { s.browser with timers := s.browser.timers.filter (·.callback ≠ k) } }
      { p with pending := p.pending.filter (·.k ≠ k) } := by
  refine ⟨h.now, h.next, h.held, h.log, h.missing, timers_filter h.timers k, ?_, ?_, ?_, ?_, h.nodup, h.store, ?_⟩
  · exact h.cbs.sublist (List.filter_sublist.map _)
  · intro t ht
    exact h.ids t (List.mem_filter.1 ht).1
  · intro x hx
    exact h.own x (List.mem_filter.1 hx).1
  · intro r hr
    obtain ⟨h1, h2, h3⟩ := h.res r hr
    exact ⟨h1, h2, fun t ht => h3 t (List.mem_filter.1 ht).1⟩
  · intro j hj
    by_cases hjk : j = k
    · subst hjk; exact .inl (hk hj)
    · rcases h.flight j hj with e | ⟨x, hx, e⟩
      · exact .inl (hfl j hj hjk e)
      · refine .inr ⟨x, List.mem_filter.2 ⟨hx, ?_⟩, e⟩
        rw [e.1]; simpa using hjk

/-- Ids are not used again. -/
theorem ops_ids (lossy : List UInt8 → String) (i k : Nat) (ops : List Op) : ∀ (s : App), s.browser.next + ops.length ≤ 2 ^ 31 →
    s.nextCallback + ops.length ≤ 2 ^ 64 → i < s.browser.next → k < s.nextCallback → (∀ u ∈ s.browser.timers, u.id = i ↔ u.callback = k) →
    ∀ u ∈ (ops.foldl (doOp lossy) s).browser.timers, u.id = i ↔ u.callback = k := by
  induction ops with
  | nil => intro s _ _ _ _ h; exact h
  | cons o ops ih =>
    intro s hn hc hi hk h
    simp only [List.length_cons] at hn hc
    obtain ⟨a, b, c, d', -⟩ := op_next lossy s o (by omega) (by omega)
    refine ih (doOp lossy s o) (by omega) (by omega) (by omega) (by omega) ?_
    clear ih a b c d'
    have hset : ∀ (rep : Bool) (d : Nat), ∀ u ∈ (s.browser.set rep d s.nextCallback).timers, u.id = i ↔ u.callback = k := by
      intro rep d u hu
      simp only [Browser.set, List.mem_append, List.mem_singleton] at hu
      rcases hu with hu | rfl
      · exact h u hu
      · simp only; omega
    cases o with
    | interval d =>
      have := fetch_set lossy s.browser true d (k := s.nextCallback) (by omega) (by omega)
      simp only [if_true] at this
      simp only [doOp, setTimer, this]
      exact hset _ _
    | timeout d =>
      have := fetch_set lossy s.browser false d (k := s.nextCallback) (by omega) (by omega)
      simp only [Bool.false_eq_true, if_false] at this
      simp only [doOp, setTimer, this]
      exact hset _ _
    | detach d =>
      have := fetch_set lossy s.browser false d (k := s.nextCallback) (by omega) (by omega)
      simp only [Bool.false_eq_true, if_false] at this
      simp only [doOp, setTimer, this]
      exact hset _ _
    | drop j =>
      simp only [doOp]
      cases s.held.lookup j with
      | none => exact h
      | some r =>
        simp only [dropTimer, fetch_clear, Browser.clear]
        intro u hu
        exact h u (List.mem_filter.1 hu).1

/-- An interval gets a new time. -/
theorem rel_again {fl : Option Nat} {s : App} {p : Spec} (h : Rel fl s p) (k i d : Nat)
    (hid : ∀ u ∈ s.browser.timers, u.id = i ↔ u.callback = k) :
    Rel fl { s with browser := { s.browser with
        timers := s.browser.timers.map fun u => if u.id = i then { u with due := s.browser.now + d } else u } }
      { p with pending := p.pending.map fun y => if y.k = k then { y with due := p.now + d } else y } := by
  have hcb : ∀ u : Timer, (if u.id = i then { u with due := s.browser.now + d } else u).callback = u.callback := by
    intro u; split <;> rfl
  have hidd : ∀ u : Timer, (if u.id = i then { u with due := s.browser.now + d } else u).id = u.id := by
    intro u; split <;> rfl
  have hk : ∀ y : Pending, (if y.k = k then { y with due := p.now + d } else y).k = y.k := by intro y; split <;> rfl
  have hm : ∀ y : Pending, (if y.k = k then { y with due := p.now + d } else y).mine = y.mine := by intro y; split <;> rfl
  have he : ∀ y : Pending, (if y.k = k then { y with due := p.now + d } else y).every = y.every := by intro y; split <;> rfl
  refine ⟨h.now, h.next, h.held, h.log, h.missing, ?_, ?_, ?_, ?_, ?_, h.nodup, h.store, ?_⟩
  · have e1 : (s.browser.timers.map fun u => if u.id = i then { u with due := s.browser.now + d } else u).map tkey =
        (s.browser.timers.map tkey).map fun q => if q.1 = k then (q.1, s.browser.now + d, q.2.2) else q := by
      rw [List.map_map, List.map_map]
      apply List.map_congr_left
      intro u hu
      by_cases e : u.callback = k
      · have e' : (tkey u).1 = k := e
        simp only [Function.comp]
        rw [if_pos ((hid u hu).2 e), if_pos e']; rfl
      · have e' : ¬ (tkey u).1 = k := e
        simp only [Function.comp]
        rw [if_neg (fun e' => e ((hid u hu).1 e')), if_neg e']
    have e2 : (p.pending.map fun y => if y.k = k then { y with due := p.now + d } else y).map pkey =
        (p.pending.map pkey).map fun q => if q.1 = k then (q.1, p.now + d, q.2.2) else q := by
      rw [List.map_map, List.map_map]
      apply List.map_congr_left
      intro y hy
      by_cases e : y.k = k
      · have e' : (pkey y).1 = k := e
        simp only [Function.comp]
        rw [if_pos e, if_pos e']; rfl
      · have e' : ¬ (pkey y).1 = k := e
        simp only [Function.comp]
        rw [if_neg e, if_neg e']
    simp only
    rw [e1, e2, h.timers, h.now]
  · simp only [List.map_map]
    have : ((fun u : Timer => u.callback) ∘ fun u => if u.id = i then { u with due := s.browser.now + d } else u) = fun u => u.callback :=
      funext hcb
    rw [this]; exact h.cbs
  · intro t ht
    obtain ⟨u, hu, rfl⟩ := List.mem_map.1 ht
    rw [hcb, hidd]; exact h.ids u hu
  · intro x hx
    obtain ⟨y, hy, rfl⟩ := List.mem_map.1 hx
    rw [hk, hm, he]; exact h.own y hy
  · intro r hr
    obtain ⟨h1, h2, h3⟩ := h.res r hr
    refine ⟨h1, h2, fun t ht => ?_⟩
    obtain ⟨u, hu, rfl⟩ := List.mem_map.1 ht
    rw [hcb, hidd]; exact h3 u hu
  · intro j hj
    rcases h.flight j hj with e | ⟨x, hx, e⟩
    · exact .inl e
    · refine .inr ⟨_, List.mem_map.2 ⟨x, hx, rfl⟩, ?_⟩
      rw [hk, hm]; exact e

theorem rel_fire (lossy : List UInt8 → String) {s : App} {p : Spec} (h : Rel none s p) (k : Nat) (ops : List Op) (ho : ∀ o ∈ ops, o.Short)
    (hn : s.browser.next + ops.length ≤ 2 ^ 31) (hc : s.nextCallback + ops.length ≤ 2 ^ 64) :
    Rel none (fire lossy k ops s) (p.event (.fire k ops)) ∧
    s.browser.next ≤ (fire lossy k ops s).browser.next ∧ (fire lossy k ops s).browser.next ≤ s.browser.next + ops.length ∧
    (fire lossy k ops s).nextCallback ≤ s.nextCallback + ops.length := by
  have hf := find_rel h.timers k
  simp only [fire, Spec.event]
  cases hft : s.browser.timers.find? (·.callback = k) with
  | none =>
    rw [hft] at hf
    cases hfp : p.pending.find? (·.k = k) with
    | none => exact ⟨h, Nat.le_refl _, Nat.le_add_right _ _, Nat.le_add_right _ _⟩
    | some x => rw [hfp] at hf; simp at hf
  | some t =>
    rw [hft] at hf
    cases hfp : p.pending.find? (·.k = k) with
    | none => rw [hfp] at hf; simp at hf
    | some x =>
      rw [hfp] at hf
      simp only [Option.map_some, Option.some.injEq, tkey, pkey, Prod.mk.injEq] at hf
      obtain ⟨hcb, hdue, hev⟩ := hf
      have hxk : x.k = k := by simpa using List.find?_some hfp
      have hx : x ∈ p.pending := List.mem_of_find?_eq_some hfp
      have ht : t ∈ s.browser.timers := List.mem_of_find?_eq_some hft
      have htk : t.callback = k := by rw [hcb, hxk]
      obtain ⟨i, hi⟩ := h.resource hx
      rw [hxk] at hi
      have hid : (t.id : Int) = i.toInt := ((h.res _ hi).2.2 t ht).2 htk
      simp only
      rw [hdue, h.now, hev]
      by_cases hd : x.due ≤ p.now
      · rw [if_pos hd, if_pos hd]
        cases hxe : x.every with
        | none =>
          simp only
          rw [hid, clear_eq h hi]
          simp only [callback]
          have hgone : ∀ y ∈ (ops.foldl Spec.op { p with pending := p.pending.filter (·.k ≠ k), log := p.log ++ [.called p.now k] }).pending, y.k ≠ k := by
            refine spec_ops_gone ops k _ ?_ ?_
            · simp only
              rw [← h.next]; exact (h.res _ hi).1
            · intro y hy
              simpa using (List.mem_filter.1 hy).2
          have hown := h.own x hx
          by_cases hm : x.mine
          · rw [if_pos hm, hxk] at hown
            have hs : s.store.lookup k = some .user := (h.store k .user).2 (.inl ⟨rfl, hown⟩)
            rw [hs]
            simp only
            have h1 := rel_log (rel_pop (fl' := none) h k (fun _ _ _ e => e) (fun hb => (not_both h hown hb).elim)) (.called p.now k)
            rw [← h.now] at h1 ⊢
            obtain ⟨a, b, c, d, e, -⟩ := rel_ops lossy ops h1 ho hn hc
            exact ⟨a, b, c, e⟩
          · rw [if_neg hm, hxk] at hown
            have hs : s.store.lookup k = some .detached := (h.store k .detached).2 (.inr ⟨rfl, hown.1⟩)
            rw [hs]
            simp only
            have h1 := rel_log (rel_pop (fl' := some k) h k (fun _ _ _ e => by simp at e) (fun _ => rfl)) (.called p.now k)
            rw [← h.now] at h1 hgone ⊢
            obtain ⟨a, b, c, d, e, -⟩ := rel_ops lossy ops h1 ho hn hc
            generalize ops.foldl (doOp lossy) _ = s2 at a b c d e ⊢
            generalize ops.foldl Spec.op _ = p2 at a hgone ⊢
            cases hl : s2.boxes.lookup k with
            | none =>
              refine ⟨⟨a.now, a.next, a.held, a.log, a.missing, a.timers, a.cbs, a.ids, a.own, a.res, a.nodup, a.store, ?_⟩, b, c, e⟩
              intro j hj
              rcases a.flight j hj with e | e
              · simp only [Option.some.injEq] at e
                obtain ⟨v, hv⟩ := lookup_keys.1 hj
                rw [e, hl] at hv; cases hv
              · exact .inr e
            | some v =>
              have hkb : k ∈ keys s2.boxes := lookup_keys.2 ⟨v, hl⟩
              have hkh : k ∉ keys s2.held := fun hh => not_both a hh hkb
              have := rel_remove lossy (fl' := none) a (List.mem_append_right _ (lookup_mem hl)) (by
                intro j hj e; simp only [Option.some.injEq] at e; exact absurd e hj)
              rw [filter_keys_id hkh] at this
              have hp : p2.pending.filter (·.k ≠ k) = p2.pending := by
                rw [List.filter_eq_self]; intro y hy; simpa using hgone y hy
              have hq : p2.held.filter (· ≠ k) = p2.held := by
                rw [List.filter_eq_self]; intro y hy; rw [← a.held] at hy
                simp only [ne_eq, decide_not, Bool.not_eq_eq_eq_not, Bool.not_true, decide_eq_false_iff_not]
                rintro rfl; exact hkh hy
              rw [hp, hq] at this
              simp only [dropTimer, fetch_clear, Browser.clear] at this ⊢
              exact ⟨this, b, c, e⟩
        | some d =>
          simp only [callback]
          have hown := h.own x hx
          have hm : x.mine = true := by
            by_contra hm
            rw [if_neg hm, hxe] at hown
            simp at hown
          rw [if_pos hm, hxk] at hown
          have hs : s.store.lookup k = some .user := (h.store k .user).2 (.inl ⟨rfl, hown⟩)
          rw [hs]
          simp only
          have h1 := rel_log h (.called p.now k)
          rw [← h.now] at h1 ⊢
          obtain ⟨a, b, c, d', e, f⟩ := rel_ops lossy ops h1 ho hn hc
          have hids := ops_ids lossy t.id k ops { s with log := s.log ++ [.called s.browser.now k] } hn hc (h.ids t ht).1 (h.res _ hi).1 (by
            intro u hu
            have := (h.res _ hi).2.2 u hu
            rw [← hid] at this
            exact ⟨fun e => this.1 (by rw [e]), fun e => by have := this.2 e; omega⟩)
          exact ⟨rel_again a k t.id d hids, b, c, e⟩
      · rw [if_neg hd, if_neg hd]
        exact ⟨h, by omega, by omega, by omega⟩

theorem rel_event (lossy : List UInt8 → String) {s : App} {p : Spec} (h : Rel none s p) (e : Event) (he : e.Short)
    (hn : s.browser.next + e.size ≤ 2 ^ 31) (hc : s.nextCallback + e.size ≤ 2 ^ 64) :
    Rel none (step lossy s e) (p.event e) ∧ (step lossy s e).browser.next ≤ s.browser.next + e.size ∧
    (step lossy s e).nextCallback ≤ s.nextCallback + e.size := by
  cases e with
  | op o =>
    simp only [Event.size] at hn hc
    obtain ⟨a, b, c, d, -⟩ := op_next lossy s o (by omega) (by omega)
    exact ⟨rel_op lossy h o he (by omega) (by omega), b, d⟩
  | wait ms =>
    refine ⟨⟨by simp [step, Spec.event, h.now], h.next, h.held, h.log, h.missing, h.timers, h.cbs, h.ids, h.own, h.res, h.nodup, h.store, h.flight⟩, ?_, ?_⟩
    · simp [step, Event.size]
    · simp [step, Event.size]
  | fire k ops =>
    obtain ⟨a, b, c, d⟩ := rel_fire lossy h k ops he hn hc
    exact ⟨a, c, d⟩

theorem rel_run (lossy : List UInt8 → String) (es : List Event) : ∀ {s : App} {p : Spec}, Rel none s p → (∀ e ∈ es, e.Short) →
    s.browser.next + (es.map Event.size).sum ≤ 2 ^ 31 → s.nextCallback + (es.map Event.size).sum ≤ 2 ^ 64 →
    Rel none (run lossy s es) (p.run es) := by
  induction es with
  | nil => intro s p h _ _ _; exact h
  | cons e es ih =>
    intro s p h hs hn hc
    simp only [List.map_cons, List.sum_cons] at hn hc
    obtain ⟨a, b, c⟩ := rel_event lossy h e (hs e (by simp)) (by omega) (by omega)
    exact ih a (fun e he => hs e (List.mem_cons_of_mem _ he)) (by omega) (by omega)

theorem rel_start (now : Int) (next : Nat) : Rel none (start now next) ⟨now, 1, [], [], []⟩ := by
  constructor <;> simp [start, keys]

/-! ### What the specification allows -/

def Entry.no : Entry → Nat
  | .set _ k _ _ => k
  | .dropped k => k
  | .called _ k => k

def Good (l : List Entry) : Prop := ∀ before e after, l = before ++ e :: after → Allowed before e

theorem Good.append {l : List Entry} (h : Good l) {e : Entry} (he : Allowed l e) : Good (l ++ [e]) := by
  intro before e' after heq
  rcases List.eq_nil_or_concat after with rfl | ⟨after', z, rfl⟩
  · obtain ⟨rfl, h2⟩ := List.append_inj' heq rfl
    simp only [List.cons.injEq, and_true] at h2
    exact h2 ▸ he
  · have : l ++ [e] = (before ++ e' :: after') ++ [z] := by rw [heq]; simp
    obtain ⟨h1, -⟩ := List.append_inj' this rfl
    exact h before e' after' h1

/-- `busy` is the interval that is running, if one is. -/
structure Inv (busy : Option Nat) (p : Spec) : Prop where
  good : Good p.log
  lt : ∀ e ∈ p.log, e.no < p.next
  past : ∀ t k, Entry.called t k ∈ p.log → t ≤ p.now
  uniq : (p.pending.map (·.k)).Nodup
  one : ∀ {t k d rep t' d' rep'}, Entry.set t k d rep ∈ p.log → Entry.set t' k d' rep' ∈ p.log → t = t' ∧ d = d' ∧ rep = rep'
  pend : ∀ x ∈ p.pending, ∃ t d rep, Entry.set t x.k d rep ∈ p.log ∧ t + d ≤ x.due ∧ x.due ≤ p.now + d ∧
    x.every = (if rep then some d else none) ∧ Entry.dropped x.k ∉ p.log ∧
    ∀ t', Entry.called t' x.k ∈ p.log → rep = true ∧ (busy = some x.k ∨ t' + d ≤ x.due)
  live : ∀ t k d rep, Entry.set t k d rep ∈ p.log → Entry.dropped k ∉ p.log → (∀ t', Entry.called t' k ∈ p.log → rep = true) →
    ∃ x ∈ p.pending, x.k = k
  held : ∀ k ∈ p.held, ∃ t d rep, Entry.set t k d rep ∈ p.log

theorem Inv.pending_lt {busy : Option Nat} {p : Spec} (h : Inv busy p) {x : Pending} (hx : x ∈ p.pending) : x.k < p.next := by
  obtain ⟨t, d, rep, hs, -⟩ := h.pend x hx
  exact h.lt _ hs

theorem inv_set {busy : Option Nat} {p : Spec} (h : Inv busy p) (d : Nat) (rep mine : Bool) :
    Inv busy { p with next := p.next + 1, pending := p.pending ++ [⟨p.next, p.now + d, if rep then some d else none, mine⟩],
                      held := if mine then p.held ++ [p.next] else p.held, log := p.log ++ [.set p.now p.next d rep] } := by
  have hfresh : ∀ e ∈ p.log, e.no ≠ p.next := fun e he => Nat.ne_of_lt (h.lt e he)
  refine ⟨h.good.append ?_, ?_, ?_, ?_, ?_, ?_, ?_, ?_⟩
  · intro t d rep hm
    exact hfresh _ hm rfl
  · intro e he
    simp only [List.mem_append, List.mem_singleton] at he
    rcases he with he | rfl
    · exact Nat.lt_succ_of_lt (h.lt e he)
    · exact Nat.lt_succ_self _
  · intro t k hm
    simp only [List.mem_append, List.mem_singleton, reduceCtorEq, or_false] at hm
    exact h.past t k hm
  · simp only [List.map_append, List.map_cons, List.map_nil]
    rw [List.nodup_append]
    refine ⟨h.uniq, by simp, ?_⟩
    intro a ha b hb e
    simp only [List.mem_singleton] at hb
    obtain ⟨x, hx, rfl⟩ := List.mem_map.1 ha
    exact Nat.ne_of_lt (h.pending_lt hx) (e.trans hb)
  · intro t k d' rep' t' d'' rep'' h1 h2
    simp only [List.mem_append, List.mem_singleton, Entry.set.injEq] at h1 h2
    rcases h1 with h1 | ⟨rfl, rfl, rfl, rfl⟩ <;> rcases h2 with h2 | ⟨rfl, h2, rfl, rfl⟩
    · exact h.one h1 h2
    · exact absurd h2 (hfresh _ h1)
    · exact absurd rfl (hfresh _ h2)
    · exact ⟨rfl, rfl, rfl⟩
  · intro x hx
    simp only [List.mem_append, List.mem_singleton] at hx
    rcases hx with hx | rfl
    · obtain ⟨t, d', rep', a, b, c, e, f, g⟩ := h.pend x hx
      refine ⟨t, d', rep', List.mem_append_left _ a, b, c, e, by simpa using f, ?_⟩
      intro t' ht'
      exact g t' (by simpa using ht')
    · refine ⟨p.now, d, rep, by simp, by simp, by simp, rfl, ?_, ?_⟩
      · intro hm
        simp only [List.mem_append, List.mem_singleton, reduceCtorEq, or_false] at hm
        exact hfresh _ hm rfl
      · intro t' hm
        simp only [List.mem_append, List.mem_singleton, reduceCtorEq, or_false] at hm
        exact absurd rfl (hfresh _ hm)
  · intro t k d' rep' h1 h2 h3
    simp only [List.mem_append, List.mem_singleton, Entry.set.injEq] at h1
    rcases h1 with h1 | ⟨rfl, rfl, rfl, rfl⟩
    · obtain ⟨x, hx, hxk⟩ := h.live t k d' rep' h1 (by simpa using h2) (fun t' ht' => h3 t' (by simpa using ht'))
      exact ⟨x, List.mem_append_left _ hx, hxk⟩
    · exact ⟨_, List.mem_append_right _ (List.mem_singleton.2 rfl), rfl⟩
  · intro k hk
    have : k ∈ p.held ∨ k = p.next := by
      cases mine <;> simp only [Bool.false_eq_true, if_false, if_true, List.mem_append, List.mem_singleton] at hk
      · exact .inl hk
      · exact hk
    rcases this with hk | rfl
    · obtain ⟨t, d, rep, hm⟩ := h.held k hk
      exact ⟨t, d, rep, List.mem_append_left _ hm⟩
    · exact ⟨_, _, _, List.mem_append_right _ (List.mem_singleton.2 rfl)⟩

theorem inv_op {busy : Option Nat} {p : Spec} (h : Inv busy p) (o : Op) : Inv busy (p.op o) := by
  cases o with
  | interval d => exact inv_set h d.toNat true true
  | timeout d => exact inv_set h d.toNat false true
  | detach d => exact inv_set h d.toNat false false
  | drop k =>
    simp only [Spec.op]
    split
    · rename_i hk
      obtain ⟨t0, d0, r0, hs0⟩ := h.held k hk
      refine ⟨h.good.append ⟨t0, d0, r0, hs0⟩, ?_, ?_, ?_, ?_, ?_, ?_, ?_⟩
      · intro e he
        simp only [List.mem_append, List.mem_singleton] at he
        rcases he with he | rfl
        · exact h.lt e he
        · have := h.lt _ hs0; exact this
      · intro t j hm
        simp only [List.mem_append, List.mem_singleton, reduceCtorEq, or_false] at hm
        exact h.past t j hm
      · exact h.uniq.sublist (List.filter_sublist.map _)
      · intro t j d rep t' d' rep' h1 h2
        exact h.one (by simpa using h1) (by simpa using h2)
      · intro x hx
        obtain ⟨hx, hxk⟩ := List.mem_filter.1 hx
        have hxk : x.k ≠ k := by simpa using hxk
        obtain ⟨t, d', rep', a, b, c, e, f, g⟩ := h.pend x hx
        refine ⟨t, d', rep', List.mem_append_left _ a, b, c, e, by simpa [hxk] using f, ?_⟩
        intro t' ht'
        exact g t' (by simpa using ht')
      · intro t j d rep h1 h2 h3
        simp only [List.mem_append, List.mem_singleton, Entry.dropped.injEq, not_or] at h2
        obtain ⟨x, hx, hxk⟩ := h.live t j d rep (by simpa using h1) h2.1 (fun t' ht' => h3 t' (by simpa using ht'))
        exact ⟨x, List.mem_filter.2 ⟨hx, by simpa [hxk] using h2.2⟩, hxk⟩
      · intro j hj
        obtain ⟨t, d, rep, hm⟩ := h.held j (List.mem_filter.1 hj).1
        exact ⟨t, d, rep, List.mem_append_left _ hm⟩
    · exact h

theorem inv_ops {busy : Option Nat} (ops : List Op) : ∀ {p : Spec}, Inv busy p → Inv busy (ops.foldl Spec.op p) := by
  induction ops with
  | nil => intro p h; exact h
  | cons o ops ih => intro p h; exact ih (inv_op h o)

/-- A call of a pending timer that is due is right. -/
theorem inv_allowed {p : Spec} (h : Inv none p) {x : Pending} (hx : x ∈ p.pending) (hd : x.due ≤ p.now) :
    Allowed p.log (.called p.now x.k) := by
  obtain ⟨t, d, rep, a, b, c, e, f, g⟩ := h.pend x hx
  refine ⟨t, d, rep, a, by omega, f, ?_⟩
  intro t' ht'
  obtain ⟨h1, h2⟩ := g t' ht'
  refine ⟨h1, ?_⟩
  rcases h2 with h2 | h2
  · cases h2
  · omega

theorem ops_now (ops : List Op) : ∀ (p : Spec), (ops.foldl Spec.op p).now = p.now := by
  induction ops with
  | nil => intro p; rfl
  | cons o ops ih =>
    intro p
    rw [List.foldl_cons, ih]
    cases o <;> simp only [Spec.op]
    split <;> rfl

theorem inv_event {p : Spec} (h : Inv none p) (e : Event) : Inv none (p.event e) := by
  cases e with
  | op o => exact inv_op h o
  | wait ms =>
    refine ⟨h.good, h.lt, ?_, h.uniq, h.one, ?_, h.live, h.held⟩
    · intro t k hm
      have := h.past t k hm
      simp only [Spec.event]; omega
    · intro x hx
      obtain ⟨t, d, rep, a, b, c, e⟩ := h.pend x hx
      exact ⟨t, d, rep, a, b, by simp only [Spec.event]; omega, e⟩
  | fire k ops =>
    simp only [Spec.event]
    cases hf : p.pending.find? (·.k = k) with
    | none => exact h
    | some x =>
      have hxk : x.k = k := by simpa using List.find?_some hf
      have hx : x ∈ p.pending := List.mem_of_find?_eq_some hf
      simp only
      by_cases hd : x.due ≤ p.now
      · rw [if_pos hd]
        have hal := inv_allowed h hx hd
        obtain ⟨t0, d0, r0, hs0, hb0, hc0, he0, hf0, hg0⟩ := h.pend x hx
        rw [hxk] at hal hs0 hf0
        cases he : x.every with
        | none =>
          refine inv_ops ops ?_
          have hr0 : r0 = false := by
            cases r0
            · rfl
            · rw [he] at he0; simp at he0
          refine ⟨h.good.append hal, ?_, ?_, ?_, ?_, ?_, ?_, ?_⟩
          · intro e he
            simp only [List.mem_append, List.mem_singleton] at he
            rcases he with he | rfl
            · exact h.lt e he
            · have := h.lt _ hs0; exact this
          · intro t j hm
            simp only [List.mem_append, List.mem_singleton, Entry.called.injEq] at hm
            rcases hm with hm | ⟨rfl, -⟩
            · exact h.past t j hm
            · exact Int.le_refl _
          · exact h.uniq.sublist (List.filter_sublist.map _)
          · intro t j d rep t' d' rep' h1 h2
            exact h.one (by simpa using h1) (by simpa using h2)
          · intro y hy
            obtain ⟨hy, hyk⟩ := List.mem_filter.1 hy
            have hyk : y.k ≠ k := by simpa using hyk
            obtain ⟨t, d', rep', a, b, c, e, f, g⟩ := h.pend y hy
            refine ⟨t, d', rep', List.mem_append_left _ a, b, c, e, by simpa using f, ?_⟩
            intro t' ht'
            exact g t' (by simpa [hyk] using ht')
          · intro t j d rep h1 h2 h3
            have h1' : Entry.set t j d rep ∈ p.log := by simpa using h1
            obtain ⟨y, hy, hyk⟩ := h.live t j d rep h1' (by simpa using h2) (fun t' ht' => h3 t' (List.mem_append_left _ ht'))
            refine ⟨y, List.mem_filter.2 ⟨hy, ?_⟩, hyk⟩
            simp only [ne_eq, decide_not, Bool.not_eq_eq_eq_not, Bool.not_true, decide_eq_false_iff_not]
            intro e
            rw [hyk] at e
            subst e
            have := h3 p.now (by simp)
            have := (h.one h1' hs0).2.2
            simp_all
          · intro j hj
            obtain ⟨t, d, rep, hm⟩ := h.held j hj
            exact ⟨t, d, rep, List.mem_append_left _ hm⟩
        | some d =>
          have hr0 : r0 = true ∧ d0 = d := by
            cases r0
            · rw [he] at he0; simp at he0
            · rw [he] at he0; simp at he0; exact ⟨rfl, he0.symm⟩
          obtain ⟨rfl, rfl⟩ := hr0
          have h1 : Inv (some k) { p with log := p.log ++ [.called p.now k] } := by
            refine ⟨h.good.append hal, ?_, ?_, h.uniq, ?_, ?_, ?_, ?_⟩
            · intro e he
              simp only [List.mem_append, List.mem_singleton] at he
              rcases he with he | rfl
              · exact h.lt e he
              · have := h.lt _ hs0; exact this
            · intro t j hm
              simp only [List.mem_append, List.mem_singleton, Entry.called.injEq] at hm
              rcases hm with hm | ⟨rfl, -⟩
              · exact h.past t j hm
              · exact Int.le_refl _
            · intro t j d rep t' d' rep' h1 h2
              exact h.one (by simpa using h1) (by simpa using h2)
            · intro y hy
              obtain ⟨t, d', rep', a, b, c, e, f, g⟩ := h.pend y hy
              refine ⟨t, d', rep', List.mem_append_left _ a, b, c, e, by simpa using f, ?_⟩
              intro t' ht'
              by_cases hyk : y.k = k
              · rw [hyk] at a
                exact ⟨(h.one a hs0).2.2, .inl (by rw [hyk])⟩
              · have := g t' (by simpa [hyk] using ht')
                exact ⟨this.1, this.2.elim (fun e => by cases e) .inr⟩
            · intro t j d rep h1 h2 h3
              exact h.live t j d rep (by simpa using h1) (by simpa using h2) (fun t' ht' => h3 t' (List.mem_append_left _ ht'))
            · intro j hj
              obtain ⟨t, d, rep, hm⟩ := h.held j hj
              exact ⟨t, d, rep, List.mem_append_left _ hm⟩
          have h2 := inv_ops ops h1
          have hlog : Entry.set t0 k d0 true ∈ (ops.foldl Spec.op { p with log := p.log ++ [.called p.now k] }).log := by
            have : ∀ (ops : List Op) (q : Spec) (e : Entry), e ∈ q.log → e ∈ (ops.foldl Spec.op q).log := by
              intro ops
              induction ops with
              | nil => intro q e he; exact he
              | cons o ops ih =>
                intro q e he
                refine ih _ _ ?_
                cases o <;> simp only [Spec.op]
                · exact List.mem_append_left _ he
                · exact List.mem_append_left _ he
                · exact List.mem_append_left _ he
                · split
                  · exact List.mem_append_left _ he
                  · exact he
            exact this ops _ _ (List.mem_append_left _ hs0)
          simp only
          generalize ops.foldl Spec.op { p with log := p.log ++ [.called p.now k] } = q at h2 hlog ⊢
          have hk : ∀ y : Pending, (if y.k = k then { y with due := q.now + d0 } else y).k = y.k := by intro y; split <;> rfl
          refine ⟨h2.good, h2.lt, h2.past, ?_, h2.one, ?_, ?_, h2.held⟩
          · simp only [List.map_map]
            have : ((fun y : Pending => y.k) ∘ fun y => if y.k = k then { y with due := q.now + d0 } else y) = fun y => y.k := funext hk
            rw [this]; exact h2.uniq
          · intro z hz
            obtain ⟨y, hy, rfl⟩ := List.mem_map.1 hz
            obtain ⟨t, d', rep', a, b, c, e, f, g⟩ := h2.pend y hy
            by_cases hyk : y.k = k
            · rw [if_pos hyk]
              rw [hyk] at a f g
              obtain ⟨rfl, rfl, rfl⟩ := h2.one a hlog
              refine ⟨t, d', true, by simpa [hyk] using a, ?_, by simp, e, by simpa [hyk] using f, ?_⟩
              · simp only; omega
              · intro t' ht'
                refine ⟨rfl, .inr ?_⟩
                have := h2.past t' _ ht'
                simp only; omega
            · rw [if_neg hyk]
              refine ⟨t, d', rep', a, b, c, e, f, ?_⟩
              intro t' ht'
              have := g t' ht'
              refine ⟨this.1, this.2.elim (fun e => ?_) .inr⟩
              simp only [Option.some.injEq] at e
              exact absurd e.symm hyk
          · intro t j d rep h1 h3 h4
            obtain ⟨y, hy, hyk⟩ := h2.live t j d rep h1 h3 h4
            exact ⟨_, List.mem_map.2 ⟨y, hy, rfl⟩, by rw [hk, hyk]⟩
      · rw [if_neg hd]; exact h

theorem inv_run (es : List Event) : ∀ {p : Spec}, Inv none p → Inv none (p.run es) := by
  induction es with
  | nil => intro p h; exact h
  | cons e es ih => intro p h; exact ih (inv_event h e)

theorem inv_start (now : Int) : Inv none ⟨now, 1, [], [], []⟩ := by
  constructor <;> simp [Good]

/-! ## Theorems -/

/-- **C53.** Whatever a program does with timers, what happens is what the specification says: the same functions are called at
the same times, and the same timers are set in the browser. -/
theorem C53_refines_partial (lossy : List UInt8 → String) (now : Int) (next : Nat) (es : List Event) (hs : ∀ e ∈ es, e.Short)
    (hb : next + (es.map Event.size).sum ≤ 2 ^ 31) :
    let s := run lossy (start now next) es
    let p := Spec.run ⟨now, 1, [], [], []⟩ es
    s.log = p.log ∧ s.browser.now = p.now ∧
      s.browser.timers.map (fun t => (t.callback, t.due, t.every)) = p.pending.map (fun x => (x.k, x.due, x.every)) := by
  have h := rel_run lossy es (rel_start now next) hs hb (by simp only [start]; omega)
  exact ⟨h.log, h.now, h.timers⟩

/-- **C53.** A function is called only for a timer that was set and not dropped, not before its delay is over, and only once if
it is not an interval; calls of an interval are at least the delay apart. -/
theorem C53_trace_partial (lossy : List UInt8 → String) (now : Int) (next : Nat) (es : List Event) (hs : ∀ e ∈ es, e.Short)
    (hb : next + (es.map Event.size).sum ≤ 2 ^ 31) (before after : List Entry) (e : Entry)
    (hl : (run lossy (start now next) es).log = before ++ e :: after) : Allowed before e := by
  have h := rel_run lossy es (rel_start now next) hs hb (by simp only [start]; omega)
  rw [h.log] at hl
  exact (inv_run es (inv_start now)).good before e after hl

/-- **C53.** A timer is not lost: if it was set and not dropped, and is an interval or was not called yet, then when the delay has
passed again the browser can fire it, and the function is called. -/
theorem C53_fires_partial (lossy : List UInt8 → String) (now : Int) (next : Nat) (es : List Event) (ops : List Op) (ms : Nat)
    (hs : ∀ e ∈ es, e.Short) (ho : ∀ o ∈ ops, o.Short) (hb : next + (es.map Event.size).sum + ops.length ≤ 2 ^ 31)
    (t : Int) (k d : Nat) (rep : Bool)
    (hset : Entry.set t k d rep ∈ (run lossy (start now next) es).log) (hdrop : Entry.dropped k ∉ (run lossy (start now next) es).log)
    (hcall : ∀ t', Entry.called t' k ∈ (run lossy (start now next) es).log → rep = true) (hms : d ≤ ms) :
    (run lossy (start now next) es).log ++ [.called ((run lossy (start now next) es).browser.now + ms) k] <+:
      (run lossy (start now next) (es ++ [.wait ms, .fire k ops])).log := by
  have h := rel_run lossy es (rel_start now next) hs (by simp only [start]; omega) (by simp only [start]; omega)
  have h' := rel_run lossy (es ++ [.wait ms, .fire k ops]) (rel_start now next) (by
      intro e he
      simp only [List.mem_append, List.mem_cons, List.not_mem_nil, or_false] at he
      rcases he with he | rfl | rfl
      · exact hs e he
      · trivial
      · exact ho) (by simp [start, Event.size]; omega) (by simp [start, Event.size]; omega)
  have hi := inv_run es (inv_start now)
  rw [h'.log]
  rw [h.log] at hset hdrop hcall
  rw [h.log, h.now]
  have hrun : Spec.run ⟨now, 1, [], [], []⟩ (es ++ [.wait ms, .fire k ops]) =
      ((Spec.run ⟨now, 1, [], [], []⟩ es).event (.wait ms)).event (.fire k ops) := by simp [Spec.run, List.foldl_append]
  rw [hrun]
  generalize Spec.run ⟨now, 1, [], [], []⟩ es = p at hi hset hdrop hcall
  obtain ⟨x, hx, hxk⟩ := hi.live t k d rep hset hdrop hcall
  obtain ⟨t', d', rep', a, b, c, -⟩ := hi.pend x hx
  rw [hxk] at a
  obtain ⟨rfl, rfl, rfl⟩ := hi.one a hset
  have hmono : ∀ (ops : List Op) (q : Spec), q.log <+: (ops.foldl Spec.op q).log := by
    intro ops
    induction ops with
    | nil => intro q; exact List.prefix_refl _
    | cons o ops ih =>
      intro q
      refine List.IsPrefix.trans ?_ (ih _)
      cases o <;> simp only [Spec.op]
      · exact List.prefix_append _ _
      · exact List.prefix_append _ _
      · exact List.prefix_append _ _
      · split
        · exact List.prefix_append _ _
        · exact List.prefix_refl _
  simp only [Spec.event]
  cases hf : p.pending.find? (·.k = k) with
  | none =>
    have := List.find?_eq_none.1 hf x hx
    simp [hxk] at this
  | some y =>
    have hy : y ∈ p.pending := List.mem_of_find?_eq_some hf
    have hyk : y.k = k := by simpa using List.find?_some hf
    have : y = x := List.inj_on_of_nodup_map hi.uniq hy hx (by rw [hyk, hxk])
    subst this
    simp only
    have hdue : y.due ≤ p.now + ms := by omega
    simp only [hdue, if_true]
    cases y.every with
    | none => simp only; exact hmono ops { p with now := _, pending := _, log := _ }
    | some d => simp only; exact hmono ops { p with now := _, log := _ }

/-- **C53.** Callbacks are released: registered are those of the resources that the program holds and of the timers that are still
set, so a detached callback is released after it was called. Nothing is called that is not registered. -/
theorem C53_released_partial (lossy : List UInt8 → String) (now : Int) (next : Nat) (es : List Event) (hs : ∀ e ∈ es, e.Short)
    (hb : next + (es.map Event.size).sum ≤ 2 ^ 31) :
    let s := run lossy (start now next) es
    s.missing = [] ∧
      ∀ k, k ∈ s.store.map (·.1) ↔ k ∈ s.held.map (·.1) ∨ ∃ t ∈ s.browser.timers, t.callback = k := by
  have h := rel_run lossy es (rel_start now next) hs hb (by simp only [start]; omega)
  refine ⟨h.missing, ?_⟩
  intro k
  have hmem : k ∈ (run lossy (start now next) es).store.map (·.1) ↔ ∃ kind, (run lossy (start now next) es).store.lookup k = some kind := by
    generalize (run lossy (start now next) es).store = l
    induction l with
    | nil => simp
    | cons a l ih =>
      obtain ⟨a1, a2⟩ := a
      by_cases e : k = a1
      · subst e; simp [List.lookup]
      · have : (k == a1) = false := by simpa using e
        simp only [List.map_cons, List.mem_cons, List.lookup, this]
        simp only [e, false_or]
        exact ih
  rw [hmem]
  constructor
  · rintro ⟨kind, hk⟩
    rcases (h.store k kind).1 hk with ⟨-, hk⟩ | ⟨-, hk⟩
    · exact .inl hk
    · rcases h.flight k hk with e | ⟨x, hx, hxk, -⟩
      · cases e
      · right
        have : pkey x ∈ (run lossy (start now next) es).browser.timers.map tkey := by rw [h.timers]; exact List.mem_map.2 ⟨x, hx, rfl⟩
        obtain ⟨t, ht, he⟩ := List.mem_map.1 this
        refine ⟨t, ht, ?_⟩
        rw [← hxk]
        exact congrArg (·.1) he
  · rintro (hk | ⟨t, ht, rfl⟩)
    · exact ⟨.user, (h.store k .user).2 (.inl ⟨rfl, hk⟩)⟩
    · have : tkey t ∈ (Spec.run ⟨now, 1, [], [], []⟩ es).pending.map pkey := by rw [← h.timers]; exact List.mem_map.2 ⟨t, ht, rfl⟩
      obtain ⟨x, hx, he⟩ := List.mem_map.1 this
      have hxk : x.k = t.callback := congrArg (·.1) he
      have := h.own x hx
      rw [hxk] at this
      split at this
      · exact ⟨.user, (h.store _ .user).2 (.inl ⟨rfl, this⟩)⟩
      · exact ⟨.detached, (h.store _ .detached).2 (.inr ⟨rfl, this.1⟩)⟩

/-- **C53 violated.** A timeout of 2^31 ms or more fires at once: the delay is an unsigned 32 bit number in Rust and a signed one in
the browser. -/
theorem C53_long_violated (lossy : List UInt8 → String) (now : Int) (next : Nat) (hn : next < 2 ^ 31) (d : UInt32) (hd : 2 ^ 31 ≤ d.toNat) :
    (run lossy (start now next) [.op (.timeout d), .fire 1 []]).log = [.set now 1 d.toNat false, .called now 1] ∧
      ¬ Allowed [.set now 1 d.toNat false] (.called now 1) := by
  constructor
  · have := fetch_set lossy ⟨now, [], next⟩ false d (k := 1) hn (by omega)
    simp only [Bool.false_eq_true, if_false] at this
    rw [show UInt64.ofNat 1 = 1 from rfl] at this
    simp [run, start, step, doOp, setTimer, this, fire, callback, Browser.set, delay_long hd, Browser.clear, List.lookup]
  · rintro ⟨t, d', rep, h1, h2, -⟩
    simp only [List.mem_singleton, Entry.set.injEq] at h1
    obtain ⟨rfl, -, rfl, -⟩ := h1
    omega

/-! ### Examples -/

/-- An interval of 100 ms, a detached timeout of 50 ms that sets a timeout and drops the interval. -/
def exampleRun : List Event :=
  [.op (.interval 100), .op (.detach 250), .wait 100, .fire 1 [], .wait 150, .fire 1 [], .fire 2 [.timeout 10, .drop 1], .wait 10,
    .fire 1 [], .fire 3 [], .fire 2 [], .fire 3 []]

example : (∀ e ∈ exampleRun, e.Short) ∧ 0 + (exampleRun.map Event.size).sum ≤ 2 ^ 31 := by
  simp [exampleRun, Event.Short, Op.Short, Event.size]

example (lossy : List UInt8 → String) : (run lossy (start 0 5) exampleRun).log =
    [.set 0 1 100 true, .set 0 2 250 false, .called 100 1, .called 250 1, .called 250 2, .set 250 3 10 false, .dropped 1, .called 260 3] := by
  have := (C53_refines_partial lossy 0 5 exampleRun (by simp [exampleRun, Event.Short, Op.Short]) (by simp [exampleRun, Event.size])).1
  rw [this]
  rfl

example : ∃ d : UInt32, 2 ^ 31 ≤ d.toNat := ⟨2 ^ 31, by decide⟩

end Verif.Host.Timers
