import Verif.Reactive.Frames
/-! # Invariants of the caches -/
namespace Verif.Reactive

variable {V : Type}

/-! ## Effect of a link update -/

theorem upd_same {α : Type} (f : GraphId → α) (id a) : upd f id a id = a := by simp [upd]
theorem upd_ne {α : Type} (f : GraphId → α) {id x a} (h : x ≠ id) : upd f id a x = f x := by simp [upd, h]

theorem clearCache_cache (s : St V) (id x) :
    (s.clearCache id).cache x = if x = id ∧ x.kind = .computed then none else s.cache x := by
  unfold St.clearCache
  split
  · rename_i h; split
    · rename_i h'; rw [h'.1, h] at h'; cases h'.2
    · rfl
  · rename_i h; simp only [upd]; split
    · rename_i h'; subst h'; simp [h]
    · simp_all
  · rename_i h; split
    · split
      · rename_i h'; rw [h'.1, h] at h'; cases h'.2
      · rfl
    · split
      · rename_i h'; rw [h'.1, h] at h'; cases h'.2
      · rfl

theorem clearCache_clients (s : St V) (id x) :
    (s.clearCache id).clients x = if x = id ∧ x.kind = .client then
      (s.clients x).map (fun cl => { cl with ready := false }) else s.clients x := by
  unfold St.clearCache
  split
  · rename_i h; split
    · rename_i h'; rw [h'.1, h] at h'; cases h'.2
    · rfl
  · rename_i h; split
    · rename_i h'; rw [h'.1, h] at h'; cases h'.2
    · rfl
  · rename_i h; split
    · rename_i hc
      split
      · rename_i h'; rw [h'.1, hc]; rfl
      · rfl
    · rename_i cl hc
      simp only [upd]
      split
      · rename_i h'; subst h'; simp [h, hc]
      · simp_all

theorem clearCache_rest (s : St V) (id) :
    (s.clearCache id).conn = s.conn ∧ (s.clearCache id).taint = s.taint ∧
    (s.clearCache id).connected = s.connected ∧ (s.clearCache id).log = s.log := by
  unfold St.clearCache
  split
  · simp
  · simp
  · split <;> simp

theorem setConnection_rest (s : St V) (id b) :
    (s.setConnection id b).conn = s.conn ∧ (s.setConnection id b).taint = s.taint ∧
    (s.setConnection id b).cache = s.cache ∧ (s.setConnection id b).clients = s.clients := by
  unfold St.setConnection
  repeat' split
  all_goals simp [St.emit]

theorem setConnection_connected (s : St V) (id b x) :
    (s.setConnection id b).connected x =
      if x = id then (b && (s.connected x || s.connectable x)) else s.connected x := by
  unfold St.setConnection
  by_cases hx : x = id
  · subst hx
    cases b
    · by_cases h : s.connected x = true <;> simp [h, St.emit, upd]
    · by_cases h : s.connected x = true
      · simp [h]
      · by_cases h' : s.connectable x = true <;> simp [h, h', St.emit, upd]
  · repeat' split
    all_goals simp [St.emit, upd, hx]

theorem applyInfo_rest (s : St V) (l) :
    (s.applyInfo l).conn = s.conn ∧ (s.applyInfo l).taint = s.taint := by
  induction l generalizing s with
  | nil => simp [St.applyInfo]
  | cons e l ih =>
    obtain ⟨id, b⟩ := e
    simp only [St.applyInfo]
    refine ⟨(ih _).1.trans ?_, (ih _).2.trans ?_⟩
    all_goals split
    · exact (setConnection_rest s id b).1
    · split
      · rfl
      · exact (clearCache_rest s id).1
    · exact (setConnection_rest s id b).2.1
    · split
      · rfl
      · exact (clearCache_rest s id).2.1

theorem applyInfo_cache (s : St V) (l x) :
    (s.applyInfo l).cache x = if x.kind = .computed ∧ (x, false) ∈ l then none else s.cache x := by
  induction l generalizing s with
  | nil => simp [St.applyInfo]
  | cons e l ih =>
    obtain ⟨id, b⟩ := e
    simp only [St.applyInfo]
    rw [ih]
    by_cases hl : x.kind = .computed ∧ (x, false) ∈ l
    · simp [hl]
    · rw [if_neg hl]
      split
      · rename_i hk
        rw [(setConnection_rest s id b).2.2.1]
        rw [if_neg]
        rintro ⟨h1, h2⟩
        rcases List.mem_cons.mp h2 with h | h
        · cases h; rw [hk] at h1; cases h1
        · exact hl ⟨h1, h⟩
      · rename_i hk
        cases b
        · simp only [Bool.false_eq_true, ↓reduceIte]
          rw [clearCache_cache]
          by_cases hx : x = id
          · subst hx; simp
          · simp only [hx, false_and, ↓reduceIte]
            rw [if_neg]
            rintro ⟨h1, h2⟩
            rcases List.mem_cons.mp h2 with h | h
            · cases h; exact hx rfl
            · exact hl ⟨h1, h⟩
        · simp only [↓reduceIte]
          rw [if_neg]
          rintro ⟨h1, h2⟩
          rcases List.mem_cons.mp h2 with h | h
          · cases h
          · exact hl ⟨h1, h⟩

/-- One entry of the report handled by `applyInfo`. -/
def St.applyOne (s : St V) (id : GraphId) (b : Bool) : St V :=
  match id.kind with
  | .value => s.setConnection id b
  | _ => if b then s else
      { s.clearCache id with work := s.forgot id (.released id (s.conn.pc.get id)) }

theorem applyInfo_cons (s : St V) (id b l) :
    s.applyInfo ((id, b) :: l) = (s.applyOne id b).applyInfo l := rfl

theorem applyOne_clients (s : St V) (id b x) :
    (s.applyOne id b).clients x = if x.kind = .client ∧ x = id ∧ b = false then
      (s.clients x).map (fun cl => { cl with ready := false }) else s.clients x := by
  unfold St.applyOne
  split
  · rename_i hk
    rw [(setConnection_rest s id b).2.2.2, if_neg]
    rintro ⟨h1, rfl, _⟩; rw [hk] at h1; cases h1
  · cases b
    · simp only [Bool.false_eq_true, ↓reduceIte, clearCache_clients, and_true]
      simp only [and_comm]
    · simp

theorem applyInfo_clients (s : St V) (l x) :
    (s.applyInfo l).clients x = if x.kind = .client ∧ (x, false) ∈ l then
      (s.clients x).map (fun cl => { cl with ready := false }) else s.clients x := by
  induction l generalizing s with
  | nil => simp [St.applyInfo]
  | cons e l ih =>
    obtain ⟨id, b⟩ := e
    rw [applyInfo_cons, ih, applyOne_clients]
    by_cases hk : x.kind = .client
    · by_cases h1 : x = id ∧ b = false
      · obtain ⟨rfl, rfl⟩ := h1
        simp only [hk, true_and, and_self, ↓reduceIte, List.mem_cons, true_or]
        split
        · cases s.clients x <;> simp
        · rfl
      · have : (x, false) ∈ (id, b) :: l ↔ (x, false) ∈ l := by
          simp only [List.mem_cons, Prod.mk.injEq, or_iff_right_iff_imp]
          rintro ⟨rfl, rfl⟩; exact absurd ⟨rfl, rfl⟩ h1
        simp only [hk, true_and, h1, ↓reduceIte, this]
    · simp [hk]

theorem applyOne_connected (s : St V) (id b x) :
    (s.applyOne id b).connected x = if x.kind = .value ∧ x = id then
      (b && (s.connected x || s.connectable x)) else s.connected x := by
  unfold St.applyOne
  split
  · rename_i hk
    rw [setConnection_connected]
    by_cases hx : x = id
    · subst hx; simp [hk]
    · simp [hx]
  · rename_i hk
    have : (if b = true then s else
        { s.clearCache id with work := s.forgot id (.released id (s.conn.pc.get id)) }).connected =
          s.connected := by
      split
      · rfl
      · exact (clearCache_rest s id).2.2.1
    rw [this, if_neg]
    rintro ⟨h1, rfl⟩; exact hk h1

theorem applyOne_connectable (s : St V) (id b) : (s.applyOne id b).connectable = s.connectable := by
  unfold St.applyOne
  split
  · exact (same_setConnection s id b).connectable
  · split
    · rfl
    · exact (same_clearCache s id).connectable

theorem applyInfo_connected (s : St V) (l : List (GraphId × Bool)) (hn : (l.map (·.1)).Nodup) (x) :
    (s.applyInfo l).connected x =
      if x.kind = .value ∧ (x, true) ∈ l then s.connected x || s.connectable x
      else if x.kind = .value ∧ (x, false) ∈ l then false else s.connected x := by
  induction l generalizing s with
  | nil => simp [St.applyInfo]
  | cons e l ih =>
    obtain ⟨id, b⟩ := e
    simp only [List.map_cons, List.nodup_cons] at hn
    rw [applyInfo_cons, ih _ hn.2, applyOne_connected, applyOne_connectable]
    have hnot : ∀ b', (id, b') ∉ l := fun b' h => hn.1 (List.mem_map.mpr ⟨_, h, rfl⟩)
    by_cases hk : x.kind = .value
    · by_cases hx : x = id
      · subst hx
        cases b <;> simp [hnot, hk]
      · simp [hx, hk]
    · simp [hk]

/-- The exact effect of `set_parent_for_client` on the state. -/
structure Push (s : St V) (X : GraphId) (N : List GraphId) (s' : St V) (nodes : List GraphId) : Prop where
  same : Same s s'
  spec : SetSpec s.conn X N s'.conn nodes
  taint : s'.taint = s.taint
  cache : ∀ x, s'.cache x =
    if x.kind = .computed ∧ x ∈ nodes ∧ s'.conn.pc.get x = [] then none else s.cache x
  clients : ∀ x, s'.clients x =
    if x.kind = .client ∧ x ∈ nodes ∧ s'.conn.pc.get x = [] then
      (s.clients x).map (fun cl => { cl with ready := false }) else s.clients x
  connected : ∀ x, s'.connected x =
    if x.kind = .value ∧ x ∈ nodes then
      decide (s'.conn.pc.get x ≠ []) && (s.connected x || s.connectable x)
    else s.connected x

theorem setParents_push {s s' : St V} {X N} (hw : s.conn.WF) (h : s.setParents X N = .ok s') :
    ∃ nodes, Push s X N s' nodes := by
  have hsame := same_setParents h
  unfold St.setParents at h
  split at h
  · cases h
  rename_i conn info hs
  obtain ⟨nodes, S, hi⟩ := Conn.setParents_spec hw hs
  cases h
  have hc : ({ s with conn := conn }.applyInfo info).conn = conn := (applyInfo_rest _ _).1
  have hmem : ∀ x b, (x, b) ∈ info ↔ x ∈ nodes ∧ b = !(conn.pc.get x).isEmpty := by
    intro x b
    subst hi
    simp only [Conn.activeInfo, List.mem_map, Prod.mk.injEq]
    constructor
    · rintro ⟨y, hy, rfl, rfl⟩; exact ⟨hy, rfl⟩
    · rintro ⟨h1, rfl⟩; exact ⟨x, h1, rfl, rfl⟩
  have hn : (info.map (·.1)).Nodup := by
    subst hi
    have : (conn.activeInfo nodes).map (·.1) = nodes := by
      simp [Conn.activeInfo, List.map_map, Function.comp_def]
    rw [this]; exact asc_nodup S.asc
  refine ⟨nodes, hsame, by rw [hc]; exact S, (applyInfo_rest _ _).2, ?_, ?_, ?_⟩
  · intro x
    rw [applyInfo_cache, hc]
    have : (x, false) ∈ info ↔ x ∈ nodes ∧ conn.pc.get x = [] := by
      rw [hmem]; simp
    simp only [this]
  · intro x
    rw [applyInfo_clients, hc]
    have : (x, false) ∈ info ↔ x ∈ nodes ∧ conn.pc.get x = [] := by
      rw [hmem]; simp
    simp only [this]
  · intro x
    rw [applyInfo_connected _ _ hn, hc]
    have h1 : (x, false) ∈ info ↔ x ∈ nodes ∧ conn.pc.get x = [] := by
      rw [hmem]; simp
    have h2 : (x, true) ∈ info ↔ x ∈ nodes ∧ conn.pc.get x ≠ [] := by
      rw [hmem]; simp [List.isEmpty_eq_false_iff]
    simp only [h1, h2]
    by_cases hk : x.kind = .value
    · by_cases hx : x ∈ nodes
      · by_cases he : conn.pc.get x = []
        · simp [hk, hx, he]
        · simp [hk, hx, he]
      · simp [hk, hx]
    · simp [hk]

/-! ## Basic invariant -/

/-- `p` can be read. -/
def St.Src (s : St V) (p : GraphId) : Prop :=
  (p.kind = .value ∧ s.vals p ≠ none) ∨ (p.kind = .computed ∧ s.defs p ≠ none)

/-- `c` can have producers. -/
def St.Dst (s : St V) (c : GraphId) : Prop :=
  (c.kind = .computed ∧ s.defs c ≠ none) ∨ (c.kind = .client ∧ s.clients c ≠ none)

/-- Everything of `Base` except that consumers exist. -/
structure Base0 (s : St V) : Prop where
  wf : s.conn.WF
  src : ∀ p c, s.conn.E p c → s.Src p
  vkind : ∀ x, s.vals x ≠ none → x.kind = .value ∧ x.num < s.next
  dkind : ∀ x, s.defs x ≠ none → x.kind = .computed ∧ x.num < s.next
  ckind : ∀ x, s.clients x ≠ none → x.kind = .client ∧ x.num < s.next
  cached : ∀ x, s.cache x ≠ none → s.defs x ≠ none
  con : ∀ x, s.connectable x = true → s.vals x ≠ none

/-- The graph only mentions existing nodes. -/
structure Base (s : St V) : Prop extends Base0 s where
  dst : ∀ p c, s.conn.E p c → s.Dst c

theorem Push.clients_none {s s' : St V} {X N nodes} (hp : Push s X N s' nodes) (x) :
    s'.clients x = none ↔ s.clients x = none := by
  rw [hp.clients]; split <;> simp

theorem Push.cache_some {s s' : St V} {X N nodes} (hp : Push s X N s' nodes) {x v}
    (h : s'.cache x = some v) : s.cache x = some v ∧
      ¬ (x.kind = .computed ∧ x ∈ nodes ∧ s'.conn.pc.get x = []) := by
  rw [hp.cache] at h
  split at h
  · cases h
  · exact ⟨h, by assumption⟩

theorem Base0.push {s s' : St V} {X N nodes} (h : Base0 s) (hp : Push s X N s' nodes)
    (hN : ∀ p ∈ N, s.Src p) : Base0 s' := by
  have hS := hp.same
  refine ⟨hp.spec.wf, ?_, ?_, ?_, ?_, ?_, ?_⟩
  · intro p c he
    have : s.Src p := by
      rcases hp.spec.sub p c he with h1 | ⟨-, h2⟩
      · exact h.src p c h1
      · exact hN p h2
    unfold St.Src at *
    rw [hS.vals, hS.defs]; exact this
  · intro x hx; rw [hS.vals] at hx; rw [hS.next]; exact h.vkind x hx
  · intro x hx; rw [hS.defs] at hx; rw [hS.next]; exact h.dkind x hx
  · intro x hx
    have : s.clients x ≠ none := fun h' => hx ((hp.clients_none x).mpr h')
    rw [hS.next]; exact h.ckind x this
  · intro x hx
    rw [hS.defs]
    cases hc : s'.cache x with
    | none => exact absurd hc hx
    | some v => exact h.cached x (by rw [(hp.cache_some hc).1]; simp)
  · intro x hx; rw [hS.connectable] at hx; rw [hS.vals]; exact h.con x hx

theorem Base0.pushBase {s s' : St V} {X N nodes} (h : Base0 s) (hp : Push s X N s' nodes)
    (hN : ∀ p ∈ N, s.Src p) (hX : N ≠ [] → s.Dst X)
    (hd : ∀ p c, s.conn.E p c → c ≠ X → s.Dst c) : Base s' := by
  refine { toBase0 := h.push hp hN, dst := ?_ }
  intro p c he
  have : s.Dst c := by
    by_cases hc : c = X
    · subst hc
      apply hX
      intro hn
      have := hp.spec.own p he
      rw [hn] at this; simp at this
    · rcases hp.spec.sub p c he with h1 | ⟨h2, -⟩
      · exact hd p c h1 hc
      · exact absurd h2 hc
  unfold St.Dst at *
  rw [hp.same.defs]
  rcases this with h1 | ⟨h1, h2⟩
  · exact Or.inl h1
  · exact Or.inr ⟨h1, fun h' => h2 ((hp.clients_none c).mp h')⟩

theorem Base.push {s s' : St V} {X N nodes} (h : Base s) (hp : Push s X N s' nodes)
    (hN : ∀ p ∈ N, s.Src p) (hX : N ≠ [] → s.Dst X) : Base s' :=
  h.toBase0.pushBase hp hN hX (fun p c he _ => h.dst p c he)

/-- A node in the report of an update is the updated one or can be read. -/
theorem Push.nodes_src {s s' : St V} {X N nodes} (h : Base0 s) (hp : Push s X N s' nodes)
    (hN : ∀ p ∈ N, s.Src p) {x} (hx : x ∈ nodes) : x = X ∨ s.Src x := by
  rcases (hp.spec.mem x).mp hx with h1 | ⟨h1, -⟩ | ⟨c, h1 | ⟨-, h1⟩, -⟩
  · exact Or.inl h1
  · exact Or.inr (hN x h1)
  · exact Or.inr (h.src x c h1)
  · exact Or.inr (hN x h1)

theorem St.Src.not_client {s : St V} {x} (h : s.Src x) : x.kind ≠ .client := by
  rcases h with h | h <;> rw [h.1] <;> simp

/-- Link updates of a computed do not touch subscriptions; those of a subscription only
reset its own flag. -/
theorem Push.clients_eq {s s' : St V} {X N nodes} (h : Base0 s) (hp : Push s X N s' nodes)
    (hN : ∀ p ∈ N, s.Src p) {x} (hx : x ≠ X) : s'.clients x = s.clients x := by
  rw [hp.clients]
  split
  · rename_i hc
    rcases hp.nodes_src h hN hc.2.1 with h1 | h1
    · exact absurd h1 hx
    · exact absurd hc.1 h1.not_client
  · rfl

/-! ## Cache invariant -/

/-- `p` returns `v` when its reads yield what the list says. -/
inductive Trace : Prog V → V → List (GraphId × V) → Prop where
  | ret (v) : Trace (.ret v) v []
  | read {id w k v rs} : Trace (k w) v rs → Trace (.read id k) v ((id, w) :: rs)

/-- Reading `r` now would yield `w` without evaluating anything. -/
def St.Cur (s : St V) (r : GraphId) (w : V) : Prop :=
  (r.kind = .value ∧ s.vals r = some w) ∨
  (r.kind = .computed ∧ s.cache r = some w ∧ s.taint r = false)

/-- Every unmarked cache is justified by current contents of the nodes read, and the
reads are recorded. -/
structure Just (s : St V) (id : GraphId) (v : V) : Prop where
  just : ∃ p rs, s.defs id = some p ∧ Trace p v rs ∧
    ∀ r ∈ rs, s.conn.E r.1 id ∧ s.Cur r.1 r.2
  scratch : Scratch s.vals s.defs id v

def CacheOK (s : St V) : Prop := ∀ id v, s.cache id = some v → s.taint id = false → Just s id v

theorem Trace.den {vals : GraphId → Option V} {defs : GraphId → Option (Prog V)} {p : Prog V} {v rs} (h : Trace p v rs)
    (hr : ∀ r ∈ rs, Scratch vals defs r.1 r.2) : Den vals defs (.inr p) v := by
  induction h with
  | ret v => exact .ret
  | read _ ih =>
    exact .read (hr _ List.mem_cons_self) (ih (fun r h => hr r (List.mem_cons_of_mem _ h)))

theorem St.Cur.scratch {s : St V} (hc : CacheOK s) {r w} (h : s.Cur r w) : Scratch s.vals s.defs r w := by
  rcases h with ⟨h1, h2⟩ | ⟨h1, h2, h3⟩
  · exact .value h1 h2
  · exact (hc r w h2 h3).scratch

/-- Transfer of from-scratch values to another state. -/
theorem scratch_transfer {vals vals' : GraphId → Option V} {defs defs' : GraphId → Option (Prog V)}
    (C : GraphId → V → Prop)
    (hC : ∀ id w, C id w → (id.kind = .value ∧ vals id = some w ∧ vals' id = some w) ∨
      (id.kind = .computed ∧ ∃ p rs, defs id = some p ∧ defs' id = some p ∧ Trace p w rs ∧
        ∀ r ∈ rs, C r.1 r.2))
    {x v} (h : Den vals defs x v) :
    match x with
    | .inl id => ∀ w, C id w → Den vals' defs' (.inl id) w ∧ w = v
    | .inr p => ∀ w rs, Trace p w rs → (∀ r ∈ rs, C r.1 r.2) → Den vals' defs' (.inr p) w ∧ w = v := by
  induction h with
  | @value id v hk hv =>
    intro w hw
    rcases hC id w hw with ⟨_, h2, h3⟩ | ⟨h1, _⟩
    · rw [hv] at h2; cases h2; exact ⟨.value hk h3, rfl⟩
    · rw [hk] at h1; cases h1
  | @computed id p v hk hd _ ih =>
    intro w hw
    rcases hC id w hw with ⟨h1, _⟩ | ⟨_, p', rs, h2, h3, h4, h5⟩
    · rw [hk] at h1; cases h1
    · rw [hd] at h2; cases h2
      obtain ⟨i1, i2⟩ := ih w rs h4 h5
      exact ⟨.computed hk h3 i1, i2⟩
  | ret =>
    intro w rs ht _
    cases ht; exact ⟨.ret, rfl⟩
  | @read id w k v _ _ ih1 ih2 =>
    intro w' rs ht hr
    cases ht with
    | read ht =>
      rename_i u rs
      obtain ⟨i1, rfl⟩ := ih1 u (hr _ List.mem_cons_self)
      obtain ⟨i2, i3⟩ := ih2 w' rs ht (fun r h => hr r (List.mem_cons_of_mem _ h))
      exact ⟨.read i1 i2, i3⟩

/-- A link update keeps every justification except that of the updated node. -/
theorem Just.push {s s' : St V} {X N nodes} (hp : Push s X N s' nodes) (hb : Base0 s) {id v}
    (hX : id ≠ X) (hc : s'.cache id = some v) (hj : Just s id v) : Just s' id v := by
  have hS := hp.same
  obtain ⟨hc0, hnot⟩ := hp.cache_some hc
  have hk : id.kind = .computed := (hb.dkind id (hb.cached id (by rw [hc0]; simp))).1
  obtain ⟨⟨p, rs, h1, h2, h3⟩, h4⟩ := hj
  refine ⟨⟨p, rs, by rw [hS.defs]; exact h1, h2, ?_⟩, by rw [hS.vals, hS.defs]; exact h4⟩
  intro r hr
  obtain ⟨he, hcur⟩ := h3 r hr
  have he' : s'.conn.E r.1 id := by
    by_cases hc' : s'.conn.E r.1 id
    · exact hc'
    exfalso
    rcases hp.spec.why r.1 id (Or.inl he) hc' with h5 | ⟨h5, d, h6⟩
    · exact hX h5.1
    · refine hnot ⟨hk, (hp.spec.mem id).mpr (Or.inr (Or.inr ⟨d, h6, h5 d⟩)), ?_⟩
      exact List.eq_nil_iff_forall_not_mem.mpr h5
  refine ⟨he', ?_⟩
  rcases hcur with ⟨h5, h6⟩ | ⟨h5, h6, h7⟩
  · exact Or.inl ⟨h5, by rw [hS.vals]; exact h6⟩
  · refine Or.inr ⟨h5, ?_, by rw [hp.taint]; exact h7⟩
    rw [hp.cache, if_neg]
    · exact h6
    · rintro ⟨-, -, hn⟩
      unfold Conn.E at he'; rw [hn] at he'; simp at he'

theorem CacheOK.push {s s' : St V} {X N nodes} (h : CacheOK s) (hb : Base0 s)
    (hp : Push s X N s' nodes)
    (hX : s.cache X = none ∨ s.taint X = true) : CacheOK s' := by
  intro id v hc ht
  obtain ⟨hc0, hnot⟩ := hp.cache_some hc
  rw [hp.taint] at ht
  have hne : id ≠ X := by
    rintro rfl
    rcases hX with h1 | h1
    · rw [h1] at hc0; cases hc0
    · rw [h1] at ht; cases ht
  exact (h id v hc0 ht).push hp hb hne hc

/-! ## Evaluation -/

structure Good (s : St V) : Prop where
  base : Base s
  cache : CacheOK s

/-- No computed whose closure is running has an unmarked cache. -/
def StackOK (s : St V) (K : List GraphId) : Prop := ∀ x ∈ K, s.cache x = none ∨ s.taint x = true

/-- Result of reading a node. -/
structure Got (s : St V) (K : List GraphId) (id : GraphId) (s' : St V) (v : V) : Prop where
  good : Good s'
  same : Same s s'
  stack : StackOK s' K
  src : s.Src id
  clients : s'.clients = s.clients
  scratch : s'.taint id = false → Scratch s'.vals s'.defs id v
  cached : id.kind = .computed → s'.cache id = some v

theorem St.Src.same {s s' : St V} (h : Same s s') {x} : s'.Src x ↔ s.Src x := by
  unfold St.Src; rw [h.vals, h.defs]

theorem eval_good {rd : St V → GraphId → Except Err (St V × V)} {K : List GraphId}
    (hrd : ∀ s id s' v, Good s → StackOK s K → rd s id = .ok (s', v) → Got s K id s' v)
    (p : Prog V) {s ctx s' v ctx'} (hg : Good s) (hk : StackOK s K)
    (h : p.eval rd s ctx = .ok (s', v, ctx')) :
    Good s' ∧ Same s s' ∧ StackOK s' K ∧ s'.clients = s.clients ∧
    ∃ ts : List (GraphId × V × Bool), ctx' = ctx ++ ts.map (fun t => (t.1, t.2.2)) ∧
      Trace p v (ts.map fun t => (t.1, t.2.1)) ∧
      ∀ t ∈ ts, s'.Src t.1 ∧ (t.2.2 = false → Scratch s'.vals s'.defs t.1 t.2.1) := by
  induction p generalizing s ctx with
  | ret w =>
    simp only [Prog.eval, Except.ok.injEq, Prod.mk.injEq] at h
    obtain ⟨rfl, rfl, rfl⟩ := h
    exact ⟨hg, .refl _, hk, rfl, [], by simp, .ret _, by simp⟩
  | read id k ih =>
    simp only [Prog.eval] at h
    split at h
    · cases h
    · rename_i s1 w h1
      have G := hrd _ _ _ _ hg hk h1
      obtain ⟨j1, j2, j3, j4, ts, j5, j6, j7⟩ := ih w G.good G.stack h
      refine ⟨j1, G.same.trans j2, j3, j4.trans G.clients, (id, w, s1.taint id) :: ts, ?_, ?_, ?_⟩
      · simp [j5]
      · exact .read j6
      · intro t ht
        rcases List.mem_cons.mp ht with rfl | ht
        · refine ⟨(St.Src.same (G.same.trans j2)).mpr G.src, fun hd => ?_⟩
          have := G.scratch hd
          rw [j2.vals, j2.defs]; exact this
        · exact j7 t ht

theorem getNode_good (n) : ∀ K (s : St V) id s' v, Good s → StackOK s K →
    getNode n K s id = .ok (s', v) → Got s K id s' v := by
  induction n with
  | zero => intro K s id s' v _ _ h; simp [getNode] at h
  | succ n ih =>
    intro K s id s' v hg hK h
    simp only [getNode] at h
    split at h
    · rename_i hkind
      split at h
      · cases h
      · rename_i w hw
        cases h
        exact ⟨hg, .refl _, hK, Or.inl ⟨hkind, by rw [hw]; simp⟩, rfl, fun _ => .value hkind hw,
          fun h => by rw [hkind] at h; cases h⟩
    · rename_i hkind
      split at h
      · cases h
      rename_i p hp
      split at h
      · rename_i w hw
        cases h
        exact ⟨hg, .refl _, hK, Or.inr ⟨hkind, by rw [hp]; simp⟩, rfl, fun ht => (hg.cache _ _ hw ht).scratch,
          fun _ => hw⟩
      rename_i hnone
      split at h
      · cases h
      rename_i s1 w ctx hev
      split at h
      · cases h
      rename_i s2 hset
      cases h
      have hK1 : StackOK s (id :: K) := by
        intro x hx
        rcases List.mem_cons.mp hx with rfl | hx
        · exact Or.inl hnone
        · exact hK x hx
      obtain ⟨g1, f1, k1, c1, ts, e1, e2, e3⟩ := eval_good (ih (id :: K)) p hg hK1 hev
      simp only [List.nil_append] at e1
      obtain ⟨nodes, hp2⟩ := setParents_push g1.base.wf hset
      have hN : ∀ q ∈ sOfList (ctx.map (·.1)), s1.Src q := by
        intro q hq
        rw [mem_sOfList, e1] at hq
        simp only [List.map_map, List.mem_map, Function.comp] at hq
        obtain ⟨t, ht, rfl⟩ := hq
        exact (e3 t ht).1
      have hdef1 : s1.defs id = some p := by rw [f1.defs]; exact hp
      have hb2 : Base s2 := g1.base.push hp2 hN (fun _ => Or.inl ⟨hkind, by rw [hdef1]; simp⟩)
      have hX1 := k1 id List.mem_cons_self
      have hc2 : CacheOK s2 := g1.cache.push g1.base.toBase0 hp2 hX1
      have hX2 : s2.cache id = none ∨ s2.taint id = true := by
        rcases hX1 with h | h
        · left; rw [hp2.cache]; split
          · rfl
          · exact h
        · right; rw [hp2.taint]; exact h
      have f2 : Same s s2 := f1.trans hp2.same
      have hdef2 : s2.defs id = some p := by rw [f2.defs]; exact hp
      generalize hs3 : ({ s2.mark K id ctx with
        cache := upd s2.cache id (some v)
        work := s2.work ++ [.run id (ctx.map (·.1))] } : St V) = s3
      have t3 : s3.taint = (s2.mark K id ctx).taint := by subst hs3; rfl
      have v3 : s3.vals = s2.vals := by subst hs3; rfl
      have d3 : s3.defs = s2.defs := by subst hs3; rfl
      have n3 : s3.conn = s2.conn := by subst hs3; rfl
      have ca3 : s3.cache = upd s2.cache id (some v) := by subst hs3; rfl
      have cl3 : s3.clients = s2.clients := by subst hs3; rfl
      have x3 : s3.next = s2.next := by subst hs3; rfl
      have cn3 : s3.connectable = s2.connectable := by subst hs3; rfl
      have f3 : Same s s3 := f2.trans (by subst hs3; exact ⟨rfl, rfl, rfl, rfl, rfl, rfl⟩)
      have ht_id : s3.taint id = false → id ∉ K ∧ ∀ t ∈ ts, t.2.2 = false ∧ s2.conn.E t.1 id ∧
          (t.1.kind = .computed → s2.cache t.1 ≠ none ∧ s2.taint t.1 = false) := by
        intro ht
        rw [t3] at ht
        simp only [St.mark, upd_same, Bool.or_eq_false_iff, decide_eq_false_iff_not,
          List.any_eq_false] at ht
        refine ⟨ht.1, fun t htm => ?_⟩
        have := ht.2 (t.1, t.2.2) (by rw [e1]; exact List.mem_map.mpr ⟨t, htm, rfl⟩)
        simp only [Bool.or_eq_true, decide_eq_true_eq, Bool.and_eq_true, not_or, Bool.not_eq_true,
          Decidable.not_not, not_and, Option.isNone_iff_eq_none] at this
        refine ⟨this.1.1, this.1.2, fun hk => ?_⟩
        have h2 := this.2 hk
        exact ⟨h2.1, h2.2⟩
      have ht_ne : ∀ x, x ≠ id → s3.taint x = s2.taint x := by
        intro x hx; rw [t3]; simp [St.mark, upd_ne, hx]
      have hcur : ∀ r u, s2.Cur r u → s3.Cur r u := by
        intro r u hr
        rcases hr with ⟨h1, h2⟩ | ⟨h1, h2, h3⟩
        · exact Or.inl ⟨h1, by rw [v3]; exact h2⟩
        · have hne : r ≠ id := by
            rintro rfl
            rcases hX2 with h | h
            · rw [h] at h2; cases h2
            · rw [h] at h3; cases h3
          exact Or.inr ⟨h1, by rw [ca3, upd_ne _ hne]; exact h2, by rw [ht_ne r hne]; exact h3⟩
      have hscr : s3.taint id = false → Just s3 id v := by
        intro ht
        obtain ⟨_, hall⟩ := ht_id ht
        have hsc : ∀ t ∈ ts, Scratch s3.vals s3.defs t.1 t.2.1 := by
          intro t htm
          have h1 := (e3 t htm).2 (hall t htm).1
          rw [v3, d3, hp2.same.vals, hp2.same.defs]; exact h1
        refine ⟨⟨p, ts.map (fun t => (t.1, t.2.1)), by rw [d3]; exact hdef2, e2, ?_⟩, ?_⟩
        · intro r hr
          obtain ⟨t, htm, rfl⟩ := List.mem_map.mp hr
          obtain ⟨_, hE, hcomp⟩ := hall t htm
          refine ⟨by rw [n3]; exact hE, hcur _ _ ?_⟩
          rcases (e3 t htm).1 with ⟨hkv, _⟩ | ⟨hkc, _⟩
          · left
            refine ⟨hkv, ?_⟩
            have hs := hsc t htm
            cases hs with
            | value _ hv => rw [← v3]; exact hv
            | computed hk' _ _ => rw [hkv] at hk'; cases hk'
          · right
            obtain ⟨hc, htt⟩ := hcomp hkc
            cases hcc : s2.cache t.1 with
            | none => exact absurd hcc hc
            | some u =>
              have h1 := (hc2 _ _ hcc htt).scratch
              have h2 := hsc t htm
              rw [v3, d3] at h2
              have := h1.det h2
              subst this
              exact ⟨hkc, rfl, htt⟩
        · refine .computed hkind (by rw [d3]; exact hdef2) (e2.den ?_)
          intro r hr
          obtain ⟨t, htm, rfl⟩ := List.mem_map.mp hr
          exact hsc t htm
      refine ⟨⟨?_, ?_⟩, f3, ?_, Or.inr ⟨hkind, by rw [hp]; simp⟩, ?_, fun ht => (hscr ht).scratch, ?_⟩
      · have hsrc : ∀ x, s3.Src x ↔ s2.Src x := by intro x; unfold St.Src; rw [v3, d3]
        refine { wf := by rw [n3]; exact hb2.wf, src := ?_, vkind := ?_, dkind := ?_, ckind := ?_,
                 cached := ?_, con := ?_, dst := ?_ }
        · intro a b he; rw [n3] at he; exact (hsrc a).mpr (hb2.src a b he)
        · intro x; rw [v3, x3]; exact hb2.vkind x
        · intro x; rw [d3, x3]; exact hb2.dkind x
        · intro x; rw [cl3, x3]; exact hb2.ckind x
        · intro x hx
          rw [d3]
          by_cases hxi : x = id
          · subst hxi; rw [hdef2]; simp
          · rw [ca3, upd_ne _ hxi] at hx; exact hb2.cached x hx
        · intro x; rw [cn3, v3]; exact hb2.con x
        · intro a b he; rw [n3] at he
          have := hb2.dst a b he
          unfold St.Dst at *; rw [d3, cl3]; exact this
      · intro y u hy hty
        by_cases hyi : y = id
        · subst hyi
          rw [ca3, upd_same] at hy; cases hy
          exact hscr hty
        · rw [ca3, upd_ne _ hyi] at hy
          rw [ht_ne y hyi] at hty
          obtain ⟨⟨q, rs, h1, h2, h3⟩, h4⟩ := hc2 y u hy hty
          refine ⟨⟨q, rs, by rw [d3]; exact h1, h2, ?_⟩, by rw [v3, d3]; exact h4⟩
          intro r hr
          exact ⟨by rw [n3]; exact (h3 r hr).1, hcur _ _ (h3 r hr).2⟩
      · intro x hx
        by_cases hxi : x = id
        · subst hxi
          right; rw [t3]; simp [St.mark, upd_same, hx]
        · rw [ca3, upd_ne _ hxi, ht_ne x hxi]
          rcases k1 x (List.mem_cons_of_mem _ hx) with h | h
          · left; rw [hp2.cache]; split
            · rfl
            · exact h
          · right; rw [hp2.taint]; exact h
      · rw [cl3]
        rw [← c1]
        funext x
        by_cases hxi : x = id
        · subst hxi
          rw [hp2.clients]
          rw [if_neg]
          rintro ⟨h1, _⟩; rw [hkind] at h1; cases h1
        · exact hp2.clients_eq g1.base.toBase0 hN hxi
      · intro _; rw [ca3, upd_same]
    · cases h

end Verif.Reactive
