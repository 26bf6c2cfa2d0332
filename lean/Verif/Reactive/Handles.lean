import Verif.Reactive.Graph
import Mathlib.Logic.Relation
/-!
# C87: when values, computeds and subscriptions are freed

Model of the ownership in `crates/vertigo/src/computed/`: `value.rs`, `computed_box.rs`, `graph_value.rs`, `dependencies/refresh.rs`,
`dependencies/external_connections.rs`, `drop_resource.rs`. A `Value` or a `Computed` is a counted reference (`Rc`); closures own the handles they capture; a subscription is owned by the resource that
`subscribe` returns, and owns what its callback has returned.

`Rc` is trusted: an object is freed when the last reference is dropped. Simplifications: the contents of values and the results of closures hold no handles; closures capture handles of
values and computeds, not resources of subscriptions. The links between nodes and the caches are in `Verif.Reactive.Machine`.
-/
namespace Verif.Reactive.Handles

/-! ## Model -/

/-- `ValueInner` (value.rs:14-18) or `GraphValue` (graph_value.rs:5-9). -/
structure Obj where
  id : GraphId
  /-- the handles in the closure -/
  caps : List GraphId
  /-- what is in `resource_box` (computed_box.rs:104, 130) -/
  owned : List GraphId
  deriving DecidableEq

/-- A subscription whose closure is running: it is held by a variable on the stack (computed_box.rs:106, 119-123 in its first run, `weak_value.upgrade()`, graph_value.rs:34, later). -/
structure Frame where
  client : GraphId
  /-- resources that the callback will return -/
  fresh : List GraphId
  first : Bool

structure Heap where
  /-- graph_id.rs:38. -/
  next : Nat := 1
  objs : List Obj := []
  /-- handles in variables of the application -/
  app : List GraphId := []
  /-- external_connections.rs:7: what the registered closures hold -/
  connect : List (GraphId × List GraphId) := []
  stack : List Frame := []
  /-- the keys of `refresh` (refresh.rs:6) -/
  tokens : List GraphId := []
  /-- Ghost: what was freed, in order. -/
  freed : List GraphId := []

/-- All references. -/
def Heap.refs (s : Heap) : List GraphId :=
  s.app ++ s.stack.flatMap (fun f => f.client :: f.fresh) ++ s.connect.flatMap (·.2) ++ s.objs.flatMap fun o => o.caps ++ o.owned

/-- `Drop for GraphValue` (graph_value.rs:89-95) and `Drop for ValueInner` (value.rs:20-27): the object, its token and the closure that is registered for it are removed. -/
def Heap.remove (s : Heap) (x : GraphId) : Heap :=
  { s with
    objs := s.objs.filter (·.id ≠ x)
    tokens := s.tokens.filter (· ≠ x)
    connect := s.connect.filter (·.1 ≠ x)
    freed := s.freed ++ [x] }

/-- What the closure that is registered for a value holds. -/
def Heap.generator (s : Heap) (x : GraphId) : List GraphId := (s.connect.filter (·.1 = x)).flatMap (·.2)

/-- The number of objects and of the references they hold. -/
def Heap.size (s : Heap) : Nat := (s.objs.map fun o => 1 + o.caps.length + o.owned.length).sum + (s.connect.map (·.2.length)).sum

theorem sum_filter {α : Type} (l : List α) (p : α → Bool) (f : α → Nat) : ((l.filter p).map f).sum + ((l.filter fun x => !p x).map f).sum = (l.map f).sum := by
  induction l with
  | nil => rfl
  | cons a l ih => by_cases h : p a <;> simp [h] <;> omega

theorem le_sum {l : List Nat} {a : Nat} (h : a ∈ l) : a ≤ l.sum := by
  induction l with
  | nil => cases h
  | cons b l ih =>
      rw [List.sum_cons]
      rcases List.mem_cons.mp h with rfl | h
      · omega
      · have := ih h
        omega

theorem remove_size {s : Heap} {x : GraphId} {o : Obj} (h : s.objs.find? (·.id = x) = some o) :
    (s.remove x).size + o.caps.length + o.owned.length + (s.generator x).length < s.size := by
  have h1 := List.mem_of_find?_eq_some h
  have h2 := List.find?_some h
  have e1 := sum_filter s.objs (fun o => decide (o.id = x)) (fun o => 1 + o.caps.length + o.owned.length)
  have e2 := sum_filter s.connect (fun e => decide (e.1 = x)) (fun e => e.2.length)
  have e3 : o ∈ s.objs.filter fun o => decide (o.id = x) := List.mem_filter.mpr ⟨h1, h2⟩
  have e4 : 1 + o.caps.length + o.owned.length ≤ ((s.objs.filter fun o => decide (o.id = x)).map fun o => 1 + o.caps.length + o.owned.length).sum :=
    le_sum (List.mem_map.mpr ⟨o, e3, rfl⟩)
  have e5 : (s.generator x).length = ((s.connect.filter fun e => decide (e.1 = x)).map fun e => e.2.length).sum := by
    simp [Heap.generator, List.length_flatMap]
  simp only [Heap.size, Heap.remove, ne_eq, decide_not]
  omega

/-- Dropping references: an object without any other reference is freed, and what it holds is dropped. -/
def release : List GraphId → Heap → Heap
  | [], s => s
  | x :: todo, s =>
      if x ∈ s.refs ++ todo then release todo s
      else
        match _h : s.objs.find? (·.id = x) with
        | none => release todo s
        | some o =>
            release (o.caps ++ o.owned ++ s.generator x ++ todo) (s.remove x)
termination_by todo s => s.size + todo.length
decreasing_by
  · simp
  · simp
  · have := remove_size _h
    simp only [List.length_append, List.length_cons]
    omega

/-- What an application can do. -/
inductive Op where
  /-- `Value::new` (value.rs:67-76) -/
  | value
  /-- `Value::with_connect` (value.rs:82-104), whose generator captures these handles -/
  | withConnect (caps : List GraphId)
  /-- `Computed::from` (computed_box.rs:74-78) -/
  | computed (caps : List GraphId)
  | clone (x : GraphId)
  | drop (x : GraphId)
  /-- the beginning of `subscribe` or `subscribe_all` (computed_box.rs:101-121, 128-142): the closure holds the computed and what the callback captures -/
  | subscribe (target : GraphId) (caps : List GraphId)
  /-- the refresh of a subscription begins (graph_value.rs:34-42) -/
  | refresh (c : GraphId)
  /-- The run that began last ends. If the callback was `called`, what it returns replaces what it returned before (computed_box.rs:112-115). The resource of a new subscription goes into what the callback around it will return
  (`keep`), or to the application. -/
  | ended (called keep : Bool)

/-- A handle of a value or a computed that somebody has. -/
def Heap.has (s : Heap) (x : GraphId) : Prop := x ∈ s.refs ∧ x.kind ≠ .client

instance (s : Heap) (x : GraphId) : Decidable (s.has x) := inferInstanceAs (Decidable (_ ∧ _))

/-- What is in the box of a subscription. -/
def Heap.box (s : Heap) (c : GraphId) : List GraphId := (s.objs.filter (·.id = c)).flatMap (·.owned)

/-- computed_box.rs:113-115. -/
def Heap.setBox (s : Heap) (c : GraphId) (owned : List GraphId) : Heap :=
  { s with objs := s.objs.map fun o => if o.id = c then { o with owned := owned } else o }

/-- What `subscribe` returns (computed_box.rs:123). -/
def Heap.give (s : Heap) (keep : Bool) (c : GraphId) : Heap :=
  match keep, s.stack with
  | true, g :: rest => { s with stack := { g with fresh := g.fresh ++ [c] } :: rest }
  | _, _ => { s with app := c :: s.app }

/-- One action. Actions with handles that nobody has do not exist; here they do nothing. -/
def step (s : Heap) : Op → Heap
  | .value =>
      let id : GraphId := ⟨.value, s.next⟩
      { s with next := s.next + 1, objs := ⟨id, [], []⟩ :: s.objs, app := id :: s.app }
  | .withConnect caps =>
      if ∀ y ∈ caps, s.has y then
        let v : GraphId := ⟨.value, s.next⟩
        let k : GraphId := ⟨.computed, s.next + 1⟩
        { s with
          next := s.next + 2
          objs := ⟨k, [v], []⟩ :: ⟨v, [], []⟩ :: s.objs
          tokens := k :: s.tokens
          connect := (v, v :: caps) :: s.connect
          app := k :: s.app }
      else s
  | .computed caps =>
      if ∀ y ∈ caps, s.has y then
        let id : GraphId := ⟨.computed, s.next⟩
        { s with next := s.next + 1, objs := ⟨id, caps, []⟩ :: s.objs, tokens := id :: s.tokens, app := id :: s.app }
      else s
  | .clone x => if s.has x then { s with app := x :: s.app } else s
  | .drop x => if x ∈ s.app then release [x] { s with app := s.app.erase x } else s
  | .subscribe target caps =>
      if ∀ y ∈ target :: caps, s.has y then
        let id : GraphId := ⟨.client, s.next⟩
        { s with next := s.next + 1, objs := ⟨id, target :: caps, []⟩ :: s.objs, tokens := id :: s.tokens, stack := ⟨id, [], true⟩ :: s.stack }
      else s
  | .refresh c => if c ∈ s.tokens ∧ c.kind = .client then { s with stack := ⟨c, [], false⟩ :: s.stack } else s
  | .ended called keep =>
      match s.stack with
      | [] => s
      | f :: rest =>
          let s1 := { s with stack := rest }
          let replace := called || !f.fresh.isEmpty
          let s2 := if replace then s1.setBox f.client f.fresh else s1
          let old := if replace then s.box f.client else []
          if f.first then release old (s2.give keep f.client) else release (old ++ [f.client]) s2

def run (ops : List Op) : Heap := ops.foldl step {}

/-! ## Specification -/

/-- The object exists. -/
def Heap.Alive (s : Heap) (x : GraphId) : Prop := ∃ o ∈ s.objs, o.id = x

/-- `x` holds a reference to `y`. -/
def Heap.Holds (s : Heap) (x y : GraphId) : Prop := ∃ o ∈ s.objs, o.id = x ∧ (y ∈ o.caps ∨ y ∈ o.owned)

/-- A variable of the application, or of code that is running, holds `x`. -/
def Heap.Variable (s : Heap) (x : GraphId) : Prop := x ∈ s.app ∨ ∃ f ∈ s.stack, x = f.client ∨ x ∈ f.fresh

/-- Something in the application that can be used leads to `x`. -/
def Heap.Reached (s : Heap) (x : GraphId) : Prop := ∃ r, s.Variable r ∧ Relation.ReflTransGen s.Holds r x

/-- A generator that is registered leads to `x`. -/
def Heap.Registered (s : Heap) (x : GraphId) : Prop := ∃ e ∈ s.connect, ∃ r ∈ e.2, Relation.ReflTransGen s.Holds r x

def Op.isConnect : Op → Bool
  | .withConnect _ => true
  | _ => false

/-! ## Proofs -/

/-- What holds between two actions (`todo = []`), and while references are dropped. -/
structure Mid (s : Heap) (todo : List GraphId) : Prop where
  nodup : (s.objs.map (·.id)).Nodup
  fresh : ∀ o ∈ s.objs, o.id.num < s.next
  live : ∀ x ∈ s.refs ++ todo, s.Alive x
  used : ∀ o ∈ s.objs, o.id ∈ s.refs ++ todo
  caps : ∀ o ∈ s.objs, ∀ y ∈ o.caps, y.num < o.id.num ∧ y.kind ≠ .client
  owned : ∀ o ∈ s.objs, ∀ y ∈ o.owned, o.id.num < y.num ∧ o.id.kind = .client ∧ y.kind = .client
  frames : ∀ f ∈ s.stack, f.client.kind = .client ∧ ∀ y ∈ f.fresh, f.client.num < y.num ∧ y.kind = .client
  younger : s.stack.Pairwise fun f g => f.first = true → g.client.num < f.client.num
  tokens : ∀ x, x ∈ s.tokens ↔ s.Alive x ∧ x.kind ≠ .value
  gone : ∀ x ∈ s.freed, x.num < s.next ∧ ¬ s.Alive x
  once : s.freed.Nodup

theorem mem_refs {s : Heap} {y : GraphId} : y ∈ s.refs ↔ y ∈ s.app ∨ (∃ f ∈ s.stack, y = f.client ∨ y ∈ f.fresh) ∨ (∃ e ∈ s.connect, y ∈ e.2) ∨
    ∃ o ∈ s.objs, y ∈ o.caps ∨ y ∈ o.owned := by
  simp [Heap.refs, List.mem_flatMap]

theorem alive_remove {s : Heap} {x y : GraphId} : (s.remove x).Alive y ↔ s.Alive y ∧ y ≠ x := by
  simp only [Heap.Alive, Heap.remove, List.mem_filter, decide_eq_true_eq]
  constructor
  · rintro ⟨o, ⟨h1, h2⟩, rfl⟩
    exact ⟨⟨o, h1, rfl⟩, h2⟩
  · rintro ⟨⟨o, h1, rfl⟩, h2⟩
    exact ⟨o, ⟨h1, h2⟩, rfl⟩

/-- The object with this id is the only one. -/
theorem Mid.unique {s : Heap} {todo : List GraphId} (h : Mid s todo) {o p : Obj} (ho : o ∈ s.objs) (hp : p ∈ s.objs) (e : o.id = p.id) : o = p := by
  have := h.nodup
  generalize s.objs = l at ho hp this
  induction l with
  | nil => cases ho
  | cons q l ih =>
      simp only [List.map_cons, List.nodup_cons] at this
      rcases List.mem_cons.mp ho with rfl | ho'
      · rcases List.mem_cons.mp hp with rfl | hp'
        · rfl
        · exact absurd (List.mem_map.mpr ⟨p, hp', e.symm⟩) this.1
      · rcases List.mem_cons.mp hp with rfl | hp'
        · exact absurd (List.mem_map.mpr ⟨o, ho', e⟩) this.1
        · exact ih ho' hp' this.2

theorem release_mid (todo : List GraphId) (s : Heap) : Mid s todo → Mid (release todo s) [] := by
  fun_induction release todo s with
  | case1 s => exact id
  | case2 x todo s hx ih =>
      intro h
      refine ih { h with live := fun y hy => h.live y ?_, used := fun o ho => ?_ }
      · rcases List.mem_append.mp hy with hy | hy <;> simp [hy]
      · have := h.used o ho
        rcases List.mem_append.mp this with h' | h'
        · exact List.mem_append_left _ h'
        · rcases List.mem_cons.mp h' with rfl | h'
          · exact hx
          · exact List.mem_append_right _ h'
  | case3 x todo s hx hf ih =>
      intro h
      obtain ⟨o, ho, e⟩ := h.live x (by simp)
      have := List.find?_eq_none.mp hf o ho
      simp [e] at this
  | case4 x todo s hx o hf ih =>
      intro h
      have ho := List.mem_of_find?_eq_some hf
      have hox : o.id = x := by simpa using List.find?_some hf
      have hxr : x ∉ s.refs := fun h' => hx (List.mem_append_left _ h')
      have hxt : x ∉ todo := fun h' => hx (List.mem_append_right _ h')
      have hsub : ∀ y, y ∈ (s.remove x).refs → y ∈ s.refs := by
        intro y hy
        rw [mem_refs] at hy ⊢
        rcases hy with hy | hy | ⟨e, he, hy⟩ | ⟨p, hp, hy⟩
        · exact .inl hy
        · exact .inr (.inl hy)
        · exact .inr (.inr (.inl ⟨e, (List.mem_filter.mp he).1, hy⟩))
        · exact .inr (.inr (.inr ⟨p, (List.mem_filter.mp hp).1, hy⟩))
      refine ih ⟨?_, ?_, ?_, ?_, ?_, ?_, h.frames, h.younger, ?_, ?_, ?_⟩
      · exact List.Nodup.sublist (List.Sublist.map _ List.filter_sublist) h.nodup
      · exact fun p hp => h.fresh p (List.mem_filter.mp hp).1
      · intro y hy
        rw [alive_remove]
        have hyx : y ∈ s.refs ∨ y ∈ todo := by
          rcases List.mem_append.mp hy with hy | hy
          · exact .inl (hsub y hy)
          · rcases List.mem_append.mp hy with hy | hy
            · left
              rw [mem_refs]
              rcases List.mem_append.mp hy with hy | hy
              · rcases List.mem_append.mp hy with hy | hy
                · exact .inr (.inr (.inr ⟨o, ho, .inl hy⟩))
                · exact .inr (.inr (.inr ⟨o, ho, .inr hy⟩))
              · unfold Heap.generator at hy
                obtain ⟨e, he, hy⟩ := List.mem_flatMap.mp hy
                exact .inr (.inr (.inl ⟨e, (List.mem_filter.mp he).1, hy⟩))
            · exact .inr hy
        refine ⟨h.live y ?_, ?_⟩
        · rcases hyx with hy | hy <;> simp [hy]
        · rintro rfl
          rcases hyx with hy | hy
          · exact hxr hy
          · exact hxt hy
      · intro p hp
        have hp' := List.mem_filter.mp hp
        have hpx : p.id ≠ x := by simpa using hp'.2
        rcases List.mem_append.mp (h.used p hp'.1) with hr | hr
        · rw [mem_refs] at hr
          rcases hr with hr | hr | ⟨e, he, hr⟩ | ⟨q, hq, hr⟩
          · exact List.mem_append_left _ (mem_refs.mpr (.inl hr))
          · exact List.mem_append_left _ (mem_refs.mpr (.inr (.inl hr)))
          · by_cases e1 : e.1 = x
            · refine List.mem_append_right _ (List.mem_append_left _ (List.mem_append_right _ (List.mem_flatMap.mpr ⟨e, List.mem_filter.mpr ⟨he, ?_⟩, hr⟩)))
              simpa using e1
            · exact List.mem_append_left _ (mem_refs.mpr (.inr (.inr (.inl ⟨e, List.mem_filter.mpr ⟨he, by simpa using e1⟩, hr⟩))))
          · by_cases e1 : q.id = x
            · obtain rfl := h.unique hq ho (e1.trans hox.symm)
              refine List.mem_append_right _ (List.mem_append_left _ (List.mem_append_left _ ?_))
              rcases hr with hr | hr <;> simp [hr]
            · exact List.mem_append_left _ (mem_refs.mpr (.inr (.inr (.inr ⟨q, List.mem_filter.mpr ⟨hq, by simpa using e1⟩, hr⟩))))
        · rcases List.mem_cons.mp hr with hr | hr
          · exact absurd hr hpx
          · exact List.mem_append_right _ (List.mem_append_right _ hr)
      · exact fun p hp => h.caps p (List.mem_filter.mp hp).1
      · exact fun p hp => h.owned p (List.mem_filter.mp hp).1
      · intro y
        rw [alive_remove]
        simp only [Heap.remove, List.mem_filter, h.tokens y, decide_eq_true_eq]
        exact ⟨fun ⟨⟨a, b⟩, c⟩ => ⟨⟨a, c⟩, b⟩, fun ⟨⟨a, c⟩, b⟩ => ⟨⟨a, b⟩, c⟩⟩
      · intro y hy
        rw [alive_remove]
        simp only [Heap.remove, List.mem_append, List.mem_singleton] at hy
        rcases hy with hy | rfl
        · exact ⟨(h.gone y hy).1, fun h' => (h.gone y hy).2 h'.1⟩
        · exact ⟨hox ▸ h.fresh o ho, fun h' => h'.2 rfl⟩
      · simp only [Heap.remove, List.nodup_append, List.nodup_cons, List.not_mem_nil, not_false_eq_true, List.nodup_nil, and_self, List.mem_singleton, true_and]
        refine ⟨h.once, ?_⟩
        rintro a ha b rfl rfl
        exact (h.gone a ha).2 ⟨o, ho, hox⟩

theorem mid_init : Mid {} [] :=
  ⟨by simp, by simp, by simp [Heap.refs], by simp, by simp, by simp, by simp, by simp, by simp [Heap.Alive], by simp, by simp⟩

/-- A new object. -/
theorem Mid.new {s : Heap} (h : Mid s []) (kind : Kind) (caps : List GraphId) (hc : ∀ y ∈ caps, s.has y) (s' : Heap)
    (e1 : s'.next = s.next + 1) (e2 : s'.objs = ⟨⟨kind, s.next⟩, caps, []⟩ :: s.objs)
    (e3 : s'.tokens = if kind = .value then s.tokens else ⟨kind, s.next⟩ :: s.tokens) (e4 : s'.connect = s.connect) (e5 : s'.freed = s.freed)
    (e6 : (s'.app = ⟨kind, s.next⟩ :: s.app ∧ s'.stack = s.stack) ∨
      (kind = .client ∧ s'.app = s.app ∧ s'.stack = ⟨⟨kind, s.next⟩, [], true⟩ :: s.stack)) : Mid s' [] := by
  have hold : ∀ y, s.Alive y → y.num < s.next := by
    rintro y ⟨o, ho, rfl⟩
    exact h.fresh o ho
  have halive : ∀ y, s'.Alive y ↔ s.Alive y ∨ y = ⟨kind, s.next⟩ := by
    intro y
    simp only [Heap.Alive, e2, List.mem_cons, exists_eq_or_imp]
    constructor
    · rintro (h | h)
      · exact .inr h.symm
      · exact .inl h
    · rintro (h | h)
      · exact .inr h
      · exact .inl h.symm
  have hrefs : ∀ y, y ∈ s'.refs ↔ y ∈ s.refs ∨ y = ⟨kind, s.next⟩ ∨ y ∈ caps := by
    intro y
    rw [mem_refs, mem_refs, e4, e2]
    rcases e6 with ⟨a, b⟩ | ⟨_, a, b⟩ <;> rw [a, b] <;> simp only [List.mem_cons, exists_eq_or_imp, List.not_mem_nil, or_false] <;> grind
  have hcaps : ∀ y ∈ caps, y ∈ s.refs := fun y hy => (hc y hy).1
  refine ⟨?_, ?_, ?_, ?_, ?_, ?_, ?_, ?_, ?_, ?_, by rw [e5]; exact h.once⟩
  · rw [e2, List.map_cons, List.nodup_cons]
    refine ⟨?_, h.nodup⟩
    intro hm
    obtain ⟨o, ho, e⟩ := List.mem_map.mp hm
    have := h.fresh o ho
    rw [e] at this
    exact Nat.lt_irrefl _ this
  · rw [e2, e1]
    intro o ho
    rcases List.mem_cons.mp ho with rfl | ho
    · exact Nat.lt_succ_self _
    · exact Nat.lt_succ_of_lt (h.fresh o ho)
  · intro y hy
    rw [List.append_nil, hrefs] at hy
    rw [halive]
    rcases hy with hy | hy | hy
    · exact .inl (h.live y (by simpa using hy))
    · exact .inr hy
    · exact .inl (h.live y (by simpa using hcaps y hy))
  · intro o ho
    rw [List.append_nil, hrefs]
    rw [e2] at ho
    rcases List.mem_cons.mp ho with rfl | ho
    · exact .inr (.inl rfl)
    · exact .inl (by simpa using h.used o ho)
  · rw [e2]
    intro o ho
    rcases List.mem_cons.mp ho with rfl | ho
    · exact fun y hy => ⟨hold y (h.live y (by simpa using hcaps y hy)), (hc y hy).2⟩
    · exact h.caps o ho
  · rw [e2]
    intro o ho
    rcases List.mem_cons.mp ho with rfl | ho
    · intro y hy; cases hy
    · exact h.owned o ho
  · rcases e6 with ⟨_, b⟩ | ⟨k, _, b⟩
    · rw [b]; exact h.frames
    · rw [b]
      intro f hf
      rcases List.mem_cons.mp hf with rfl | hf
      · exact ⟨k, by simp⟩
      · exact h.frames f hf
  · rcases e6 with ⟨_, b⟩ | ⟨k, _, b⟩
    · rw [b]; exact h.younger
    · rw [b, List.pairwise_cons]
      refine ⟨fun g hg _ => hold _ (h.live _ ?_), h.younger⟩
      rw [List.append_nil, mem_refs]
      exact .inr (.inl ⟨g, hg, .inl rfl⟩)
  · intro x
    rw [halive, e3]
    by_cases hk : kind = .value
    · simp only [hk, if_true, h.tokens x]
      constructor
      · rintro ⟨a, b⟩; exact ⟨.inl a, b⟩
      · rintro ⟨a | a, b⟩
        · exact ⟨a, b⟩
        · exact absurd (by rw [a]) b
    · simp only [hk, if_false, List.mem_cons, h.tokens x]
      constructor
      · rintro (a | a)
        · exact ⟨.inr a, by rw [a]; exact hk⟩
        · exact ⟨.inl a.1, a.2⟩
      · rintro ⟨a | a, b⟩
        · exact .inr ⟨a, b⟩
        · exact .inl a
  · intro x hx
    rw [e5] at hx
    obtain ⟨a, b⟩ := h.gone x hx
    rw [e1, halive]
    refine ⟨Nat.lt_succ_of_lt a, ?_⟩
    rintro (c | c)
    · exact b c
    · rw [c] at a; exact Nat.lt_irrefl _ a

/-- The references are moved, or copied. -/
theorem Mid.move {s s' : Heap} {old todo : List GraphId} (h : Mid s old) (e1 : s'.next = s.next) (e2 : s'.objs = s.objs) (e3 : s'.tokens = s.tokens) (e4 : s'.freed = s.freed)
    (hr : ∀ y, y ∈ s'.refs ++ todo ↔ y ∈ s.refs ++ old)
    (hf : ∀ f ∈ s'.stack, f.client.kind = .client ∧ ∀ y ∈ f.fresh, f.client.num < y.num ∧ y.kind = .client)
    (hy : s'.stack.Pairwise fun f g => f.first = true → g.client.num < f.client.num) : Mid s' todo := by
  have ha : ∀ y, s'.Alive y ↔ s.Alive y := by intro y; simp only [Heap.Alive, e2]
  exact ⟨by rw [e2]; exact h.nodup, by rw [e2, e1]; exact h.fresh, fun x hx => (ha x).mpr (h.live x ((hr x).mp hx)),
    by rw [e2]; exact fun o ho => (hr _).mpr (h.used o ho), by rw [e2]; exact h.caps, by rw [e2]; exact h.owned, hf, hy,
    fun x => by rw [e3, h.tokens, ha], fun x hx => by rw [e1, ha]; exact h.gone x (e4 ▸ hx), by rw [e4]; exact h.once⟩

/-- The end of a run whose callback was called: what it has returned takes the place of what was in the box. -/
theorem Mid.rebox {s : Heap} (h : Mid s []) {f : Frame} {rest : List Frame} (hs : s.stack = f :: rest) :
    Mid (Heap.setBox { s with stack := rest } f.client f.fresh) (s.box f.client ++ [f.client]) := by
  have hf := h.frames f (by rw [hs]; simp)
  obtain ⟨o, ho, hoc⟩ := h.live f.client (by rw [List.append_nil, mem_refs]; exact .inr (.inl ⟨f, by rw [hs]; simp, .inl rfl⟩))
  have hids : ((s.objs.map fun p => if p.id = f.client then { p with owned := f.fresh } else p).map (·.id)) = s.objs.map (·.id) := by
    rw [List.map_map]
    apply List.map_congr_left
    intro p _
    simp only [Function.comp_apply]
    split <;> rfl
  have halive : ∀ y, (Heap.setBox { s with stack := rest } f.client f.fresh).Alive y ↔ s.Alive y := by
    intro y
    have : ∀ (l : List Obj), (∃ p ∈ l, p.id = y) ↔ y ∈ l.map (·.id) := fun l => by simp
    unfold Heap.Alive
    rw [this, this]
    unfold Heap.setBox
    rw [hids]
  have hmem : ∀ p, p ∈ (Heap.setBox { s with stack := rest } f.client f.fresh).objs ↔
      ∃ q ∈ s.objs, p = if q.id = f.client then { q with owned := f.fresh } else q := by
    intro p
    simp only [Heap.setBox, List.mem_map, eq_comm]
  have hr : ∀ y, y ∈ (Heap.setBox { s with stack := rest } f.client f.fresh).refs ++ (s.box f.client ++ [f.client]) ↔ y ∈ s.refs := by
    intro y
    have hbox : y ∈ s.box f.client ↔ ∃ q ∈ s.objs, q.id = f.client ∧ y ∈ q.owned := by
      simp [Heap.box, List.mem_flatMap, List.mem_filter, and_assoc]
    have hobj : (∃ p ∈ (Heap.setBox { s with stack := rest } f.client f.fresh).objs, y ∈ p.caps ∨ y ∈ p.owned) ↔
        y ∈ f.fresh ∨ ∃ q ∈ s.objs, y ∈ q.caps ∨ (q.id ≠ f.client ∧ y ∈ q.owned) := by
      constructor
      · rintro ⟨p, hp, hy⟩
        obtain ⟨q, hq, rfl⟩ := (hmem p).mp hp
        by_cases e : q.id = f.client
        · rw [if_pos e] at hy
          rcases hy with hy | hy
          · exact .inr ⟨q, hq, .inl hy⟩
          · exact .inl hy
        · rw [if_neg e] at hy
          rcases hy with hy | hy
          · exact .inr ⟨q, hq, .inl hy⟩
          · exact .inr ⟨q, hq, .inr ⟨e, hy⟩⟩
      · rintro (hy | ⟨q, hq, hy⟩)
        · exact ⟨_, (hmem _).mpr ⟨o, ho, rfl⟩, by rw [if_pos hoc]; exact .inr hy⟩
        · refine ⟨_, (hmem _).mpr ⟨q, hq, rfl⟩, ?_⟩
          by_cases e : q.id = f.client
          · rw [if_pos e]
            rcases hy with hy | hy
            · exact .inl hy
            · exact absurd e hy.1
          · rw [if_neg e]
            rcases hy with hy | hy
            · exact .inl hy
            · exact .inr hy.2
    rw [List.mem_append, List.mem_append, List.mem_singleton, mem_refs, mem_refs, hobj, hbox, hs]
    simp only [Heap.setBox, List.mem_cons, exists_eq_or_imp]
    constructor
    · rintro ((hy | hy | hy | hy | ⟨q, hq, hy⟩) | ⟨q, hq, hy⟩ | hy)
      · exact .inl hy
      · exact .inr (.inl (.inr hy))
      · exact .inr (.inr (.inl hy))
      · exact .inr (.inl (.inl (.inr hy)))
      · exact .inr (.inr (.inr ⟨q, hq, hy.imp id (·.2)⟩))
      · exact .inr (.inr (.inr ⟨q, hq, .inr hy.2⟩))
      · exact .inr (.inl (.inl (.inl hy)))
    · rintro (hy | ((hy | hy) | hy) | hy | ⟨q, hq, hy⟩)
      · exact .inl (.inl hy)
      · exact .inr (.inr hy)
      · exact .inl (.inr (.inr (.inr (.inl hy))))
      · exact .inl (.inr (.inl hy))
      · exact .inl (.inr (.inr (.inl hy)))
      · rcases hy with hy | hy
        · exact .inl (.inr (.inr (.inr (.inr ⟨q, hq, .inl hy⟩))))
        · by_cases e : q.id = f.client
          · exact .inr (.inl ⟨q, hq, e, hy⟩)
          · exact .inl (.inr (.inr (.inr (.inr ⟨q, hq, .inr ⟨e, hy⟩⟩))))
  refine ⟨?_, ?_, ?_, ?_, ?_, ?_, ?_, ?_, ?_, ?_, h.once⟩
  · show ((List.map _ _).map _).Nodup
    rw [hids]
    exact h.nodup
  · intro p hp
    obtain ⟨q, hq, rfl⟩ := (hmem p).mp hp
    split <;> exact h.fresh q hq
  · intro y hy
    exact (halive y).mpr (h.live y (by simpa using (hr y).mp hy))
  · intro p hp
    obtain ⟨q, hq, rfl⟩ := (hmem p).mp hp
    refine (hr _).mpr ?_
    have := h.used q hq
    rw [List.append_nil] at this
    split <;> exact this
  · intro p hp
    obtain ⟨q, hq, rfl⟩ := (hmem p).mp hp
    split <;> exact h.caps q hq
  · intro p hp
    obtain ⟨q, hq, rfl⟩ := (hmem p).mp hp
    split
    · next e =>
        intro y hy
        have := hf.2 y hy
        exact ⟨by rw [← e] at this; exact this.1, by rw [e]; exact hf.1, this.2⟩
    · exact h.owned q hq
  · exact fun g hg => h.frames g (by rw [hs]; exact List.mem_cons_of_mem _ hg)
  · have := h.younger
    rw [hs, List.pairwise_cons] at this
    exact this.2
  · intro x
    rw [halive]
    exact h.tokens x
  · intro x hx
    rw [halive]
    exact h.gone x hx

/-- The same, when the callback was not called. -/
theorem Mid.pop {s : Heap} (h : Mid s []) {f : Frame} {rest : List Frame} (hs : s.stack = f :: rest) (hf : f.fresh = []) :
    Mid { s with stack := rest } [f.client] := by
  refine h.move rfl rfl rfl rfl ?_ (fun g hg => h.frames g (by rw [hs]; exact List.mem_cons_of_mem _ hg)) ?_
  · intro y
    rw [List.mem_append, List.append_nil, List.mem_singleton, mem_refs, mem_refs, hs]
    simp only [List.mem_cons, exists_eq_or_imp, hf, List.not_mem_nil, or_false]
    grind
  · have := h.younger
    rw [hs, List.pairwise_cons] at this
    exact this.2

/-- The resource of a new subscription. -/
theorem Mid.give {s : Heap} {todo : List GraphId} {c : GraphId} (h : Mid s (todo ++ [c])) (hc : c.kind = .client) (keep : Bool)
    (hy : ∀ g ∈ s.stack, g.client.num < c.num) : Mid (s.give keep c) todo := by
  unfold Heap.give
  split
  · next g rest hs =>
      refine h.move rfl rfl rfl rfl ?_ ?_ ?_
      · intro y
        rw [List.mem_append, List.mem_append, List.mem_append, List.mem_singleton, mem_refs, mem_refs, hs]
        simp only [List.mem_cons, exists_eq_or_imp, List.mem_append, List.not_mem_nil, or_false]
        grind
      · intro f hf
        rcases List.mem_cons.mp hf with rfl | hf
        · have hg := h.frames g (by rw [hs]; simp)
          refine ⟨hg.1, fun y hy' => ?_⟩
          rcases List.mem_append.mp hy' with hy' | hy'
          · exact hg.2 y hy'
          · rw [List.mem_singleton.mp hy']
            exact ⟨hy g (by rw [hs]; simp), hc⟩
        · exact h.frames f (by rw [hs]; exact List.mem_cons_of_mem _ hf)
      · have := h.younger
        rw [hs, List.pairwise_cons] at this
        exact List.pairwise_cons.mpr this
  · refine h.move rfl rfl rfl rfl ?_ h.frames h.younger
    intro y
    rw [List.mem_append, List.mem_append, List.mem_append, List.mem_singleton, mem_refs, mem_refs]
    simp only [List.mem_cons]
    grind

theorem step_mid {s : Heap} (h : Mid s []) (op : Op) : Mid (step s op) [] := by
  have hhas : ∀ y, s.has y → y ∈ s.refs := fun y hy => hy.1
  cases op with
  | value => exact h.new .value [] (by simp) _ rfl rfl rfl rfl rfl (.inl ⟨rfl, rfl⟩)
  | computed caps =>
      simp only [step]
      split
      · next hc => exact h.new .computed caps hc _ rfl rfl rfl rfl rfl (.inl ⟨rfl, rfl⟩)
      · exact h
  | subscribe target caps =>
      simp only [step]
      split
      · next hc => exact h.new .client (target :: caps) hc _ rfl rfl rfl rfl rfl (.inr ⟨rfl, rfl, rfl⟩)
      · exact h
  | withConnect caps =>
      simp only [step]
      split
      · next hc =>
          have h1 : Mid { s with next := s.next + 1, objs := ⟨⟨.value, s.next⟩, [], []⟩ :: s.objs, app := ⟨.value, s.next⟩ :: s.app } [] :=
            h.new .value [] (by simp) _ rfl rfl rfl rfl rfl (.inl ⟨rfl, rfl⟩)
          have h2 := h1.new .computed [⟨.value, s.next⟩] (by
              intro y hy
              rw [List.mem_singleton.mp hy]
              exact ⟨by rw [mem_refs]; exact .inl (List.mem_cons_self ..), by simp⟩)
            { s with
              next := s.next + 2
              objs := ⟨⟨.computed, s.next + 1⟩, [⟨.value, s.next⟩], []⟩ :: ⟨⟨.value, s.next⟩, [], []⟩ :: s.objs
              app := ⟨.computed, s.next + 1⟩ :: ⟨.value, s.next⟩ :: s.app
              tokens := ⟨.computed, s.next + 1⟩ :: s.tokens } rfl rfl rfl rfl rfl (.inl ⟨rfl, rfl⟩)
          refine h2.move rfl rfl rfl rfl ?_ h.frames h.younger
          intro y
          have hcy : y ∈ caps → y ∈ s.app ∨ (∃ f ∈ s.stack, y = f.client ∨ y ∈ f.fresh) ∨ (∃ e ∈ s.connect, y ∈ e.2) ∨ ∃ o ∈ s.objs, y ∈ o.caps ∨ y ∈ o.owned :=
            fun hy => mem_refs.mp (hhas y (hc y hy))
          rw [List.append_nil, List.append_nil, mem_refs, mem_refs]
          simp only [List.mem_cons, exists_eq_or_imp, List.not_mem_nil, or_false]
          grind
      · exact h
  | clone x =>
      simp only [step]
      split
      · next hc =>
          refine h.move rfl rfl rfl rfl ?_ h.frames h.younger
          intro y
          have := mem_refs.mp (hhas x hc)
          rw [List.append_nil, List.append_nil, mem_refs, mem_refs]
          simp only [List.mem_cons]
          grind
      · exact h
  | drop x =>
      simp only [step]
      split
      · next hc =>
          refine release_mid _ _ (h.move rfl rfl rfl rfl ?_ h.frames h.younger)
          intro y
          rw [List.mem_append, List.append_nil, List.mem_singleton, mem_refs, mem_refs]
          have : y ∈ s.app ↔ y ∈ s.app.erase x ∨ y = x := by
            by_cases e : y = x
            · subst e; simp [hc]
            · rw [List.mem_erase_of_ne e]; simp [e]
          rw [this]
          dsimp only
          grind
      · exact h
  | refresh c =>
      simp only [step]
      split
      · next hc =>
          refine h.move rfl rfl rfl rfl ?_ ?_ ?_
          · intro y
            obtain ⟨o, ho, e⟩ := ((h.tokens c).mp hc.1).1
            have := h.used o ho
            rw [List.append_nil, e, mem_refs] at this
            rw [List.append_nil, List.append_nil, mem_refs, mem_refs]
            simp only [List.mem_cons, exists_eq_or_imp, List.not_mem_nil, or_false]
            grind
          · intro f hf
            rcases List.mem_cons.mp hf with rfl | hf
            · exact ⟨hc.2, by simp⟩
            · exact h.frames f hf
          · rw [List.pairwise_cons]
            exact ⟨fun _ _ h' => by simp at h', h.younger⟩
      · exact h
  | ended called keep =>
      simp only [step]
      split
      · exact h
      · next f rest hs =>
          have hk := (h.frames f (by rw [hs]; simp)).1
          have hy := h.younger
          rw [hs, List.pairwise_cons] at hy
          by_cases hr : (called || !f.fresh.isEmpty) = true
          · simp only [hr, if_true]
            have h1 := h.rebox hs
            split
            · next hf => exact release_mid _ _ (h1.give hk keep fun g hg => hy.1 g hg hf)
            · exact release_mid _ _ h1
          · simp only [hr, Bool.false_eq_true, if_false, List.nil_append]
            have hfr : f.fresh = [] := by
              simp only [Bool.or_eq_true, Bool.not_eq_true', not_or, Bool.not_eq_false, List.isEmpty_iff] at hr
              exact hr.2
            have h1 := h.pop hs hfr
            split
            · next hf => exact release_mid _ _ (Mid.give (todo := []) h1 hk keep fun g hg => hy.1 g hg hf)
            · exact release_mid _ _ h1

theorem run_mid (ops : List Op) : Mid (run ops) [] := by
  suffices ∀ (ops : List Op) (s : Heap), Mid s [] → Mid (ops.foldl step s) [] from this ops _ mid_init
  intro ops
  induction ops with
  | nil => exact fun _ h => h
  | cons op ops ih => exact fun s h => ih _ (step_mid h op)

/-- A subscription is reached from a variable, or a registered closure. -/
theorem Mid.client_reached {s : Heap} (h : Mid s []) : ∀ (n : Nat) (x : GraphId), x.num = n → x.kind = .client → s.Alive x → s.Reached x ∨ s.Registered x := by
  intro n
  induction n using Nat.strongRecOn with
  | ind n ih =>
      rintro x rfl hk ⟨o, ho, rfl⟩
      have := h.used o ho
      rw [List.append_nil, mem_refs] at this
      rcases this with hr | hr | ⟨e, he, hr⟩ | ⟨p, hp, hr | hr⟩
      · exact .inl ⟨_, .inl hr, .refl⟩
      · exact .inl ⟨_, .inr hr, .refl⟩
      · exact .inr ⟨e, he, _, hr, .refl⟩
      · exact absurd hk (h.caps p hp _ hr).2
      · obtain ⟨a, b, _⟩ := h.owned p hp _ hr
        have hstep : s.Holds p.id o.id := ⟨p, hp, rfl, .inr hr⟩
        rcases ih _ a p.id rfl b ⟨p, hp, rfl⟩ with ⟨r, h1, h2⟩ | ⟨e, he, r, h1, h2⟩
        · exact .inl ⟨r, h1, h2.tail hstep⟩
        · exact .inr ⟨e, he, r, h1, h2.tail hstep⟩

theorem Mid.reached {s : Heap} (h : Mid s []) : ∀ (n : Nat) (x : GraphId), s.next - x.num = n → s.Alive x → s.Reached x ∨ s.Registered x := by
  intro n
  induction n using Nat.strongRecOn with
  | ind n ih =>
      rintro x rfl ⟨o, ho, rfl⟩
      by_cases hk : o.id.kind = .client
      · exact h.client_reached _ _ rfl hk ⟨o, ho, rfl⟩
      have := h.used o ho
      rw [List.append_nil, mem_refs] at this
      rcases this with hr | hr | ⟨e, he, hr⟩ | ⟨p, hp, hr | hr⟩
      · exact .inl ⟨_, .inl hr, .refl⟩
      · exact .inl ⟨_, .inr hr, .refl⟩
      · exact .inr ⟨e, he, _, hr, .refl⟩
      · have a := (h.caps p hp _ hr).1
        have b := h.fresh p hp
        have hstep : s.Holds p.id o.id := ⟨p, hp, rfl, .inl hr⟩
        rcases ih (s.next - p.id.num) (by omega) p.id rfl ⟨p, hp, rfl⟩ with ⟨r, h1, h2⟩ | ⟨e, he, r, h1, h2⟩
        · exact .inl ⟨r, h1, h2.tail hstep⟩
        · exact .inr ⟨e, he, r, h1, h2.tail hstep⟩
      · exact absurd (h.owned p hp _ hr).2.2 hk

theorem Mid.reach_alive {s : Heap} (h : Mid s []) {r x : GraphId} (hr : r ∈ s.refs) (hx : Relation.ReflTransGen s.Holds r x) : s.Alive x := by
  cases hx with
  | refl => exact h.live r (by simpa using hr)
  | tail _ hl =>
      obtain ⟨o, ho, _, hy⟩ := hl
      exact h.live x (by rw [List.append_nil, mem_refs]; exact .inr (.inr (.inr ⟨o, ho, hy⟩)))

theorem release_connect (todo : List GraphId) (s : Heap) : (∀ e ∈ (release todo s).connect, e ∈ s.connect) ∧
    ∀ e ∈ s.connect, e.1 ∈ e.2 → e ∈ (release todo s).connect := by
  fun_induction release todo s with
  | case1 s => exact ⟨fun _ h => h, fun _ h _ => h⟩
  | case2 x todo s hx ih => exact ih
  | case3 x todo s hx hf ih => exact ih
  | case4 x todo s hx o hf ih =>
      refine ⟨fun e he => (List.mem_filter.mp (ih.1 e he)).1, fun e he hs => ih.2 e (List.mem_filter.mpr ⟨he, ?_⟩) hs⟩
      simp only [ne_eq, decide_not, Bool.not_eq_eq_eq_not, Bool.not_true, decide_eq_false_iff_not]
      rintro rfl
      exact hx (List.mem_append_left _ (mem_refs.mpr (.inr (.inr (.inl ⟨e, he, hs⟩)))))

theorem give_connect (s : Heap) (keep : Bool) (c : GraphId) : (s.give keep c).connect = s.connect := by
  unfold Heap.give
  split <;> rfl

theorem step_connect (s : Heap) (op : Op) : (op.isConnect = false → ∀ e ∈ (step s op).connect, e ∈ s.connect) ∧
    ∀ e ∈ s.connect, e.1 ∈ e.2 → e ∈ (step s op).connect := by
  have same : ∀ t : Heap, t.connect = s.connect →
      (∀ e ∈ t.connect, e ∈ s.connect) ∧ ∀ e ∈ s.connect, e.1 ∈ e.2 → e ∈ t.connect := fun t h => by rw [h]; exact ⟨fun _ h => h, fun _ h _ => h⟩
  have rel : ∀ (l : List GraphId) (t : Heap), t.connect = s.connect →
      (∀ e ∈ (release l t).connect, e ∈ s.connect) ∧ ∀ e ∈ s.connect, e.1 ∈ e.2 → e ∈ (release l t).connect := fun l t h => by
    rw [← h]; exact release_connect l t
  have out : ∀ t : Heap, ((∀ e ∈ t.connect, e ∈ s.connect) ∧ ∀ e ∈ s.connect, e.1 ∈ e.2 → e ∈ t.connect) →
      ((op.isConnect = false → ∀ e ∈ t.connect, e ∈ s.connect) ∧ ∀ e ∈ s.connect, e.1 ∈ e.2 → e ∈ t.connect) := fun _ h => ⟨fun _ => h.1, h.2⟩
  cases op with
  | value => exact out _ (same _ rfl)
  | withConnect caps =>
      refine ⟨fun h => by simp [Op.isConnect] at h, fun e he _ => ?_⟩
      simp only [step]
      split
      · exact List.mem_cons_of_mem _ he
      · exact he
  | computed caps => simp only [step]; split <;> exact out _ (same _ rfl)
  | clone x => simp only [step]; split <;> exact out _ (same _ rfl)
  | drop x =>
      simp only [step]
      split
      · exact out _ (rel _ _ rfl)
      · exact out _ (same _ rfl)
  | subscribe t caps => simp only [step]; split <;> exact out _ (same _ rfl)
  | refresh c => simp only [step]; split <;> exact out _ (same _ rfl)
  | ended called keep =>
      simp only [step]
      split
      · exact out _ (same _ rfl)
      · split
        · refine out _ (rel _ _ ?_)
          rw [give_connect]
          split <;> rfl
        · refine out _ (rel _ _ ?_)
          split <;> rfl

theorem run_connect_nil (ops : List Op) (h : ∀ op ∈ ops, op.isConnect = false) : (run ops).connect = [] := by
  suffices ∀ (ops : List Op) (s : Heap), (∀ op ∈ ops, op.isConnect = false) → s.connect = [] → (ops.foldl step s).connect = [] from this ops {} h rfl
  intro ops
  induction ops with
  | nil => exact fun _ _ h => h
  | cons op ops ih =>
      intro s h hs
      refine ih _ (fun o ho => h o (List.mem_cons_of_mem _ ho)) (List.eq_nil_iff_forall_not_mem.mpr fun e he => ?_)
      have := (step_connect s op).1 (h op (List.mem_cons_self ..)) e he
      rw [hs] at this
      cases this

theorem foldl_connect (ops : List Op) (s : Heap) (e : GraphId × List GraphId) (he : e ∈ s.connect) (hs : e.1 ∈ e.2) : e ∈ (ops.foldl step s).connect := by
  induction ops generalizing s with
  | nil => exact he
  | cons op ops ih => exact ih _ ((step_connect s op).2 e he hs)

theorem Heap.Variable.ref {s : Heap} {x : GraphId} (h : s.Variable x) : x ∈ s.refs := mem_refs.mpr (h.imp id .inl)

theorem release_same (l : List GraphId) (s : Heap) : (release l s).app = s.app ∧ (release l s).stack = s.stack ∧ (release l s).next = s.next ∧ ∀ o ∈ (release l s).objs, o ∈ s.objs := by
  fun_induction release l s with
  | case1 s => exact ⟨rfl, rfl, rfl, fun _ h => h⟩
  | case2 x todo s hx ih => exact ih
  | case3 x todo s hx hf ih => exact ih
  | case4 x todo s hx o hf ih => exact ⟨ih.1, ih.2.1, ih.2.2.1, fun o ho => (List.mem_filter.mp (ih.2.2.2 o ho)).1⟩

theorem give_same (s : Heap) (keep : Bool) (c : GraphId) : (s.give keep c).objs = s.objs ∧ (s.give keep c).next = s.next ∧
    ((s.give keep c).app = s.app ∨ (s.give keep c).app = c :: s.app) := by
  unfold Heap.give
  split
  · exact ⟨rfl, rfl, .inl rfl⟩
  · exact ⟨rfl, rfl, .inr rfl⟩

theorem give_variable (s : Heap) (keep : Bool) (c : GraphId) : (s.give keep c).Variable c := by
  unfold Heap.give
  split
  · exact .inr ⟨_, List.mem_cons_self .., .inr (by simp)⟩
  · exact .inl (List.mem_cons_self ..)

/-- An object of the next state is new, or it captures what it captured before. -/
theorem step_obj (s : Heap) (op : Op) : s.next ≤ (step s op).next ∧ ∀ o ∈ (step s op).objs, s.next ≤ o.id.num ∨ ∃ p ∈ s.objs, p.id = o.id ∧ p.caps = o.caps := by
  have keep : ∀ t : Heap, t.objs = s.objs → ∀ o ∈ t.objs, s.next ≤ o.id.num ∨ ∃ p ∈ s.objs, p.id = o.id ∧ p.caps = o.caps :=
    fun t h o ho => .inr ⟨o, h ▸ ho, rfl, rfl⟩
  cases op with
  | value =>
      refine ⟨Nat.le_succ _, fun o ho => ?_⟩
      rcases List.mem_cons.mp ho with rfl | ho
      · exact .inl (Nat.le_refl _)
      · exact .inr ⟨o, ho, rfl, rfl⟩
  | withConnect caps =>
      simp only [step]
      split
      · refine ⟨Nat.le_add_right _ _, fun o ho => ?_⟩
        rcases List.mem_cons.mp ho with rfl | ho
        · exact .inl (Nat.le_succ _)
        · rcases List.mem_cons.mp ho with rfl | ho
          · exact .inl (Nat.le_refl _)
          · exact .inr ⟨o, ho, rfl, rfl⟩
      · exact ⟨Nat.le_refl _, keep _ rfl⟩
  | computed caps =>
      simp only [step]
      split
      · refine ⟨Nat.le_succ _, fun o ho => ?_⟩
        rcases List.mem_cons.mp ho with rfl | ho
        · exact .inl (Nat.le_refl _)
        · exact .inr ⟨o, ho, rfl, rfl⟩
      · exact ⟨Nat.le_refl _, keep _ rfl⟩
  | subscribe t caps =>
      simp only [step]
      split
      · refine ⟨Nat.le_succ _, fun o ho => ?_⟩
        rcases List.mem_cons.mp ho with rfl | ho
        · exact .inl (Nat.le_refl _)
        · exact .inr ⟨o, ho, rfl, rfl⟩
      · exact ⟨Nat.le_refl _, keep _ rfl⟩
  | clone x => simp only [step]; split <;> exact ⟨Nat.le_refl _, keep _ rfl⟩
  | drop x =>
      simp only [step]
      split
      · have := release_same [x] { s with app := s.app.erase x }
        exact ⟨by rw [this.2.2.1]; exact Nat.le_refl _, fun o ho => .inr ⟨o, this.2.2.2 o ho, rfl, rfl⟩⟩
      · exact ⟨Nat.le_refl _, keep _ rfl⟩
  | refresh c => simp only [step]; split <;> exact ⟨Nat.le_refl _, keep _ rfl⟩
  | ended called keep' =>
      simp only [step]
      split
      · exact ⟨Nat.le_refl _, keep _ rfl⟩
      · next f rest hs =>
          have key : ∀ t : Heap, t = (if (called || !f.fresh.isEmpty) = true then Heap.setBox { s with stack := rest } f.client f.fresh else { s with stack := rest }) →
              t.next = s.next ∧ ∀ o ∈ t.objs, s.next ≤ o.id.num ∨ ∃ p ∈ s.objs, p.id = o.id ∧ p.caps = o.caps := by
            intro t ht
            split at ht
            · subst ht
              refine ⟨rfl, fun o ho => ?_⟩
              obtain ⟨p, hp, rfl⟩ := List.mem_map.mp ho
              refine .inr ⟨p, hp, ?_⟩
              split <;> exact ⟨rfl, rfl⟩
            · subst ht
              exact ⟨rfl, keep _ rfl⟩
          have hk := key _ rfl
          split
          · have h1 := release_same (if (called || !f.fresh.isEmpty) = true then s.box f.client else [])
              (Heap.give (if (called || !f.fresh.isEmpty) = true then Heap.setBox { s with stack := rest } f.client f.fresh else { s with stack := rest }) keep' f.client)
            have h2 := give_same (if (called || !f.fresh.isEmpty) = true then Heap.setBox { s with stack := rest } f.client f.fresh else { s with stack := rest }) keep' f.client
            refine ⟨by rw [h1.2.2.1, h2.2.1, hk.1]; exact Nat.le_refl _, fun o ho => hk.2 o ?_⟩
            rw [← h2.1]
            exact h1.2.2.2 o ho
          · have h1 := release_same ((if (called || !f.fresh.isEmpty) = true then s.box f.client else []) ++ [f.client])
              (if (called || !f.fresh.isEmpty) = true then Heap.setBox { s with stack := rest } f.client f.fresh else { s with stack := rest })
            exact ⟨by rw [h1.2.2.1, hk.1]; exact Nat.le_refl _, fun o ho => hk.2 o (h1.2.2.2 o ho)⟩

/-- What an object captures does not change. -/
theorem foldl_holds (ops : List Op) (s : Heap) (x : GraphId) (caps : List GraphId) (hx : x.num < s.next) (h : ∀ o ∈ s.objs, o.id = x → o.caps = caps) :
    ∀ o ∈ (ops.foldl step s).objs, o.id = x → o.caps = caps := by
  induction ops generalizing s with
  | nil => exact h
  | cons op ops ih =>
      have hs := step_obj s op
      refine ih (step s op) (by omega) fun o ho e => ?_
      rcases hs.2 o ho with h1 | ⟨p, hp, h1, h2⟩
      · rw [e] at h1; omega
      · rw [← h2]
        exact h p hp (h1.trans e)

theorem holds_new (ops more : List Op) (op : Op) (x : GraphId) (caps : List GraphId) (hx : x.num < (step (run ops) op).next)
    (h : ∀ o ∈ (step (run ops) op).objs, o.id = x → o.caps = caps) (ha : (run (ops ++ op :: more)).Alive x) :
    ∀ y ∈ caps, (run (ops ++ op :: more)).Holds x y := by
  obtain ⟨o, ho, e⟩ := ha
  intro y hy
  refine ⟨o, ho, e, .inl ?_⟩
  rw [run, List.foldl_append, List.foldl_cons] at ho
  rw [foldl_holds more _ x caps hx h o ho e]
  exact hy

/-! ## Theorems -/

/-- **C87**: what the functions of the library give. `Value::new`, `Computed::from` and `with_connect` return a handle; a subscription is held by a variable while its first call lasts, and then by the resource that `subscribe`
returns. -/
theorem C87_returned (ops : List Op) :
    (⟨.value, (run ops).next⟩ : GraphId) ∈ (run (ops ++ [.value])).app ∧
    (∀ caps, (∀ y ∈ caps, (run ops).has y) → (⟨.computed, (run ops).next⟩ : GraphId) ∈ (run (ops ++ [.computed caps])).app) ∧
    (∀ caps, (∀ y ∈ caps, (run ops).has y) → (⟨.computed, (run ops).next + 1⟩ : GraphId) ∈ (run (ops ++ [.withConnect caps])).app) ∧
    (∀ t caps, (∀ y ∈ t :: caps, (run ops).has y) → (run (ops ++ [.subscribe t caps])).Variable ⟨.client, (run ops).next⟩) ∧
    (∀ f rest called keep, (run ops).stack = f :: rest → f.first = true → (run (ops ++ [.ended called keep])).Variable f.client) := by
  have e : ∀ op, run (ops ++ [op]) = step (run ops) op := fun op => by simp [run, List.foldl_append]
  refine ⟨?_, ?_, ?_, ?_, ?_⟩
  · rw [e]
    exact List.mem_cons_self ..
  · intro caps h
    rw [e]
    simp only [step, if_pos h]
    exact List.mem_cons_self ..
  · intro caps h
    rw [e]
    simp only [step, if_pos h]
    exact List.mem_cons_self ..
  · intro t caps h
    rw [e]
    simp only [step, if_pos h]
    exact .inr ⟨_, List.mem_cons_self .., .inl rfl⟩
  · intro f rest called keep hs hf
    rw [e]
    simp only [step, hs, hf, if_true]
    generalize ht : Heap.give _ keep f.client = t
    have hv : t.Variable f.client := ht ▸ give_variable _ keep f.client
    have hr := release_same (if (called || !f.fresh.isEmpty) = true then (run ops).box f.client else []) t
    unfold Heap.Variable at hv ⊢
    rw [hr.1, hr.2.1]
    exact hv

/-- **C87**: closures keep what they capture: a computed and a subscription hold, as long as they exist, the handles they were made of. -/
theorem C87_captured (ops more : List Op) (y : GraphId) :
    (∀ caps, (∀ y ∈ caps, (run ops).has y) → y ∈ caps → (run (ops ++ .computed caps :: more)).Alive ⟨.computed, (run ops).next⟩ →
      (run (ops ++ .computed caps :: more)).Holds ⟨.computed, (run ops).next⟩ y) ∧
    (∀ t caps, (∀ y ∈ t :: caps, (run ops).has y) → y ∈ t :: caps → (run (ops ++ .subscribe t caps :: more)).Alive ⟨.client, (run ops).next⟩ →
      (run (ops ++ .subscribe t caps :: more)).Holds ⟨.client, (run ops).next⟩ y) ∧
    (∀ caps, (∀ y ∈ caps, (run ops).has y) → (run (ops ++ .withConnect caps :: more)).Alive ⟨.computed, (run ops).next + 1⟩ →
      (run (ops ++ .withConnect caps :: more)).Holds ⟨.computed, (run ops).next + 1⟩ ⟨.value, (run ops).next⟩) := by
  have hf := (run_mid ops).fresh
  refine ⟨fun caps h hy ha => ?_, fun t caps h hy ha => ?_, fun caps h ha => ?_⟩
  · refine holds_new ops more _ _ caps ?_ ?_ ha y hy
    · simp only [step, if_pos h]; exact Nat.lt_succ_self _
    · simp only [step, if_pos h, List.mem_cons]
      rintro o (rfl | ho) e
      · rfl
      · have := hf o ho; rw [e] at this; exact absurd this (Nat.lt_irrefl _)
  · refine holds_new ops more _ _ (t :: caps) ?_ ?_ ha y hy
    · simp only [step, if_pos h]; exact Nat.lt_succ_self _
    · simp only [step, if_pos h]
      intro o ho e
      rcases List.mem_cons.mp ho with rfl | ho
      · rfl
      · have := hf o ho; rw [e] at this; exact absurd this (Nat.lt_irrefl _)
  · refine holds_new ops more _ _ [⟨.value, (run ops).next⟩] ?_ ?_ ha _ (List.mem_singleton.mpr rfl)
    · simp only [step, if_pos h]; exact Nat.lt_succ_self _
    · simp only [step, if_pos h]
      intro o ho e
      rcases List.mem_cons.mp ho with rfl | ho
      · rfl
      · rcases List.mem_cons.mp ho with rfl | ho
        · simp at e
        · have := hf o ho; rw [e] at this; simp at this; omega

/-- **C87**: the subscription keeps what its callback has returned last, and only that. -/
theorem C87_kept (ops : List Op) (f : Frame) (rest : List Frame) (keep : Bool) (hs : (run ops).stack = f :: rest) :
    ∀ o ∈ (run (ops ++ [.ended true keep])).objs, o.id = f.client → o.owned = f.fresh := by
  intro o ho e
  have e1 : run (ops ++ [.ended true keep]) = step (run ops) (.ended true keep) := by simp [run, List.foldl_append]
  rw [e1] at ho
  have key : o ∈ (Heap.setBox { run ops with stack := rest } f.client f.fresh).objs := by
    simp only [step, hs, Bool.true_or, if_true] at ho
    split at ho
    · rw [← (give_same _ keep f.client).1]
      exact (release_same _ _).2.2.2 o ho
    · exact (release_same _ _).2.2.2 o ho
  obtain ⟨p, _, rfl⟩ := List.mem_map.mp key
  split
  · rfl
  · next h => rw [if_neg h] at e; exact absurd e h

/-- **C87**: clones are counted: cloning makes one variable more, dropping one less, and nothing else takes a handle away from the application. -/
theorem C87_clones (ops : List Op) (x : GraphId) :
    ((run ops).has x → (run (ops ++ [.clone x])).app.count x = (run ops).app.count x + 1) ∧
    (run (ops ++ [.drop x])).app.count x = (run ops).app.count x - 1 ∧
    ∀ op, op ≠ .drop x → (run ops).app.count x ≤ (run (ops ++ [op])).app.count x := by
  have e : ∀ op, run (ops ++ [op]) = step (run ops) op := fun op => by simp [run, List.foldl_append]
  refine ⟨fun h => ?_, ?_, fun op h => ?_⟩
  · rw [e]
    simp only [step, if_pos h, List.count_cons_self]
  · rw [e]
    simp only [step]
    split
    · rw [(release_same _ _).1, List.count_erase_self]
    · next hx => rw [List.count_eq_zero_of_not_mem hx]
  · rw [e]
    have hc : ∀ (a : GraphId) (l : List GraphId), l.count x ≤ (a :: l).count x := fun a l => List.count_le_count_cons
    cases op with
    | value => exact hc _ _
    | drop y =>
        have hyx : x ≠ y := by rintro rfl; exact h rfl
        simp only [step]
        split
        · rw [(release_same _ _).1, List.count_erase_of_ne hyx]
          exact Nat.le_refl _
        · exact Nat.le_refl _
    | ended called keep =>
        simp only [step]
        split
        · exact Nat.le_refl _
        · next f rest hs =>
            have key : (if (called || !f.fresh.isEmpty) = true then Heap.setBox { run ops with stack := rest } f.client f.fresh else { run ops with stack := rest }).app = (run ops).app := by
              split <;> rfl
            split
            · rw [(release_same _ _).1]
              rcases (give_same (if (called || !f.fresh.isEmpty) = true then Heap.setBox { run ops with stack := rest } f.client f.fresh else { run ops with stack := rest }) keep f.client).2.2 with h' | h'
              · rw [h', key]; exact Nat.le_refl _
              · rw [h', key]; exact hc _ _
            · rw [(release_same _ _).1, key]
              exact Nat.le_refl _
    | refresh c => simp only [step]; split <;> exact Nat.le_refl _
    | subscribe t caps => simp only [step]; split <;> exact Nat.le_refl _
    | _ =>
        simp only [step]
        split
        · exact hc _ _
        · exact Nat.le_refl _

/-- **C87**: nothing is freed too early: in every history, all that is reached from the variables of the application exists, and a computed or a subscription that is reached can be refreshed. -/
theorem C87_alive (ops : List Op) (x : GraphId) (h : (run ops).Reached x) : (run ops).Alive x ∧ x ∉ (run ops).freed ∧ (x.kind ≠ .value → x ∈ (run ops).tokens) := by
  have hm := run_mid ops
  obtain ⟨r, h1, h2⟩ := h
  have ha := hm.reach_alive h1.ref h2
  exact ⟨ha, fun hf => (hm.gone x hf).2 ha, fun hk => (hm.tokens x).mpr ⟨ha, hk⟩⟩

/-- **C87**: in every history, exactly that exists which is reached from the variables of the application, or from a generator that is registered. -/
theorem C87_exact (ops : List Op) (x : GraphId) : (run ops).Alive x ↔ (run ops).Reached x ∨ (run ops).Registered x := by
  have hm := run_mid ops
  constructor
  · exact hm.reached _ x rfl
  · rintro (⟨r, h1, h2⟩ | ⟨e, he, r, h1, h2⟩)
    · exact hm.reach_alive h1.ref h2
    · exact hm.reach_alive (mem_refs.mpr (.inr (.inr (.inl ⟨e, he, h1⟩)))) h2

/-- **C87**, without `with_connect`: nothing is freed too late. As soon as no variable leads to an object, it does not exist, and it is refreshed no more. -/
theorem C87_no_leak_partial (ops : List Op) (hc : ∀ op ∈ ops, op.isConnect = false) (x : GraphId) (h : ¬ (run ops).Reached x) :
    ¬ (run ops).Alive x ∧ x ∉ (run ops).tokens := by
  have : ¬ (run ops).Alive x := by
    rw [C87_exact]
    rintro (h' | ⟨e, he, _⟩)
    · exact h h'
    · rw [run_connect_nil ops hc] at he
      cases he
  exact ⟨this, fun ht => this (((run_mid ops).tokens x).mp ht).1⟩

/-- **C87**, without `with_connect`: when the application has dropped everything, nothing exists. -/
theorem C87_all_freed_partial (ops : List Op) (hc : ∀ op ∈ ops, op.isConnect = false) (ha : (run ops).app = []) (hs : (run ops).stack = []) :
    (run ops).objs = [] ∧ (run ops).tokens = [] := by
  have key : ∀ x, ¬ (run ops).Reached x := by
    rintro x ⟨r, h | ⟨f, hf, _⟩, _⟩
    · rw [ha] at h; cases h
    · rw [hs] at hf; cases hf
  exact ⟨List.eq_nil_iff_forall_not_mem.mpr fun o ho => (C87_no_leak_partial ops hc o.id (key _)).1 ⟨o, ho, rfl⟩,
    List.eq_nil_iff_forall_not_mem.mpr fun x hx => (C87_no_leak_partial ops hc x (key _)).2 hx⟩

/-- **C87**: in every history, an object is freed at most once, and it never exists again. -/
theorem C87_once (ops more : List Op) : (run ops).freed.Nodup ∧ ∀ x ∈ (run ops).freed, ¬ (run (ops ++ more)).Alive x := by
  refine ⟨(run_mid ops).once, ?_⟩
  have hrel : ∀ (l : List GraphId) (s : Heap), ∀ x ∈ s.freed, x ∈ (release l s).freed := by
    intro l s
    fun_induction release l s with
    | case1 s => exact fun _ h => h
    | case2 x todo s hx ih => exact ih
    | case3 x todo s hx hf ih => exact ih
    | case4 x todo s hx o hf ih => exact fun y hy => ih y (List.mem_append_left _ hy)
  have hstep : ∀ (op : Op) (s : Heap), ∀ x ∈ s.freed, x ∈ (step s op).freed := by
    intro op s x hx
    have hgive : ∀ (t : Heap) (k : Bool) (c : GraphId), (t.give k c).freed = t.freed := fun t k c => by unfold Heap.give; split <;> rfl
    cases op with
    | ended called keep =>
        simp only [step]
        split
        · exact hx
        · split
          · refine hrel _ _ _ ?_
            rw [hgive]
            split <;> exact hx
          · refine hrel _ _ _ ?_
            split <;> exact hx
    | drop y =>
        simp only [step]
        split
        · exact hrel _ _ _ hx
        · exact hx
    | value => exact hx
    | _ => simp only [step]; split <;> exact hx
  have hmore : ∀ (more : List Op) (s : Heap), ∀ x ∈ s.freed, x ∈ (more.foldl step s).freed := by
    intro more
    induction more with
    | nil => exact fun _ _ h => h
    | cons op more ih => exact fun s x hx => ih _ x (hstep op s x hx)
  intro x hx
  refine ((run_mid (ops ++ more)).gone x ?_).2
  rw [run, List.foldl_append]
  exact hmore more _ x hx

/-- **C87**, violated: the value that is made by `with_connect` exists for ever, and so does all that its generator captures, whatever the application drops: the registered closure, which is only removed when the value is freed,
holds the value (value.rs:100-102). -/
theorem C87_connect_violated (before after : List Op) (caps : List GraphId) (h : ∀ y ∈ caps, (run before).has y) :
    ∀ x ∈ (⟨.value, (run before).next⟩ : GraphId) :: caps, (run (before ++ .withConnect caps :: after)).Alive x := by
  intro x hx
  rw [C87_exact]
  refine .inr ⟨(⟨.value, (run before).next⟩, ⟨.value, (run before).next⟩ :: caps), ?_, x, hx, .refl⟩
  rw [run, List.foldl_append, List.foldl_cons]
  refine foldl_connect after _ _ ?_ (List.mem_cons_self ..)
  show _ ∈ (step (run before) _).connect
  simp only [step, if_pos h]
  exact List.mem_cons_self ..

/-! ## The theorems apply -/

/-- A value, a computed of it, a subscription of that whose callback makes another subscription and returns it; then the application drops its handles of the value and the computed, and the subscription is refreshed: what the
callback returned is freed. -/
def nested : List Op :=
  [.value, .computed [⟨.value, 1⟩], .subscribe ⟨.computed, 2⟩ [⟨.value, 1⟩], .subscribe ⟨.value, 1⟩ [], .ended true true, .ended true false, .drop ⟨.value, 1⟩, .drop ⟨.computed, 2⟩]

example : (run nested).app = [⟨.client, 3⟩] ∧ (run nested).objs.map (·.id) = [⟨.client, 4⟩, ⟨.client, 3⟩, ⟨.computed, 2⟩, ⟨.value, 1⟩] ∧ (run nested).freed = [] := by decide +kernel

example : (run (nested ++ [.refresh ⟨.client, 3⟩, .ended true false])).freed = [⟨.client, 4⟩] := by decide +kernel

example : (run (nested ++ [.drop ⟨.client, 3⟩])).freed = [⟨.client, 3⟩, ⟨.computed, 2⟩, ⟨.client, 4⟩, ⟨.value, 1⟩] ∧
    (run (nested ++ [.drop ⟨.client, 3⟩])).objs.isEmpty := by decide +kernel

/-- A subscription that is dropped by its own callback, or by another one that it calls, exists until the callback returns. -/
example : (run (nested ++ [.refresh ⟨.client, 3⟩, .drop ⟨.client, 3⟩])).freed = [] ∧
    (run (nested ++ [.refresh ⟨.client, 3⟩, .drop ⟨.client, 3⟩, .ended false false])).objs.isEmpty := by decide +kernel

example : (run nested).Reached ⟨.value, 1⟩ :=
  ⟨⟨.client, 3⟩, .inl (by decide +kernel), .single ⟨⟨⟨.client, 3⟩, [⟨.computed, 2⟩, ⟨.value, 1⟩], [⟨.client, 4⟩]⟩, by decide +kernel, rfl, .inl (by decide)⟩⟩

example : ∀ op ∈ nested, op.isConnect = false := by decide +kernel

/-- The application has nothing, and the value exists. -/
example : (run [.withConnect [], .drop ⟨.computed, 2⟩]).app = [] ∧ (run [.withConnect [], .drop ⟨.computed, 2⟩]).objs.map (·.id) = [⟨.value, 1⟩] := by decide +kernel

end Verif.Reactive.Handles
