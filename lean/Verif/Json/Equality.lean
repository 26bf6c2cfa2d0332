import Verif.Json.Errors
/-!
# C73: equality and hash of JSON values

Sources: `js_json_struct.rs` (`PartialEq` and `Hash` for `JsJson`). An object is a `HashMap`: here the list of its entries in the order in which it is
iterated over, which is not determined by the contents.
-/
namespace Verif.Json

open Verif.Codec (JsJson)

/-! ## Model -/

mutual
/-- js_json_struct.rs:72-85: `eq`. Numbers are compared by their bits. -/
def jeq : JsJson → JsJson → Bool
  | .tru, .tru => true
  | .fls, .fls => true
  | .null, .null => true
  | .str s, .str t => s == t
  | .num a, .num b => a == b
  | .list l, .list m => jeqList l m
  | .obj l, .obj m => l.length == m.length && jeqMap l m
  | _, _ => false

/-- `Vec::eq`. -/
def jeqList : List JsJson → List JsJson → Bool
  | [], [] => true
  | a :: l, b :: m => jeq a b && jeqList l m
  | _, _ => false

/-- `HashMap::eq` (the standard library): every entry of the one is in the other. -/
def jeqMap : List (String × JsJson) → List (String × JsJson) → Bool
  | [], _ => true
  | (k, v) :: l, m => (match mapGet k m with | some w => jeq v w | none => false) && jeqMap l m
end

/-- A call of a method of the `Hasher`. -/
inductive Write where
  | u8 (n : Nat)
  | u64 (bits : UInt64)
  | bytes (s : String)
  /-- `str::hash`: the bytes and an end mark. -/
  | str (s : String)
  deriving DecidableEq

mutual
/-- js_json_struct.rs:87-121: the calls that `hash` makes. -/
def writes : JsJson → List Write
  | .tru => [.u8 1]
  | .fls => [.u8 2]
  | .null => [.u8 3]
  | .str s => [.u8 4, .bytes s]
  | .num b => [.u8 5, .u64 b]
  | .list l => .u8 6 :: writesList l
  | .obj l => .u8 7 :: writesMap l

/-- js_json_struct.rs:108-110. -/
def writesList : List JsJson → List Write
  | [] => []
  | a :: l => writes a ++ writesList l

/-- js_json_struct.rs:114-117. -/
def writesMap : List (String × JsJson) → List Write
  | [] => []
  | (k, v) :: l => .str k :: writes v ++ writesMap l
end

/-! ## Specification -/

mutual
/-- The keys of each object are different: it is a map. -/
def Distinct : JsJson → Prop
  | .list l => DistinctAll l
  | .obj l => (l.map (·.1)).Nodup ∧ DistinctMap l
  | _ => True
def DistinctAll : List JsJson → Prop
  | [] => True
  | a :: l => Distinct a ∧ DistinctAll l
def DistinctMap : List (String × JsJson) → Prop
  | [] => True
  | (_, v) :: l => Distinct v ∧ DistinctMap l
end

mutual
/-- No object has more than one entry. -/
def Single : JsJson → Prop
  | .list l => SingleAll l
  | .obj l => l.length ≤ 1 ∧ SingleMap l
  | _ => True
def SingleAll : List JsJson → Prop
  | [] => True
  | a :: l => Single a ∧ SingleAll l
def SingleMap : List (String × JsJson) → Prop
  | [] => True
  | (_, v) :: l => Single v ∧ SingleMap l
end

/-! ## Proofs -/

theorem distinctAll_iff : ∀ {l : List JsJson}, DistinctAll l ↔ ∀ x ∈ l, Distinct x
  | [] => by simp [DistinctAll]
  | a :: l => by simp [DistinctAll, distinctAll_iff (l := l)]

theorem distinctMap_iff : ∀ {l : List (String × JsJson)}, DistinctMap l ↔ ∀ e ∈ l, Distinct e.2
  | [] => by simp [DistinctMap]
  | (k, a) :: l => by simp [DistinctMap, distinctMap_iff (l := l)]

theorem jeqMap_iff {m : List (String × JsJson)} : ∀ {l : List (String × JsJson)}, jeqMap l m = true ↔ ∀ e ∈ l, ∃ w, m.lookup e.1 = some w ∧ jeq e.2 w = true
  | [] => by simp [jeqMap]
  | (k, v) :: l => by
      rw [jeqMap, Bool.and_eq_true, jeqMap_iff (l := l), List.forall_mem_cons, mapGet_lookup]
      refine and_congr ?_ Iff.rfl
      cases m.lookup k <;> simp

theorem mem_lookup {α : Type} {k : String} {x : α} : ∀ {l : List (String × α)}, (l.map (·.1)).Nodup → (k, x) ∈ l → l.lookup k = some x
  | [], _, h => by cases h
  | (k', v) :: l, hn, h => by
      simp only [List.map_cons, List.nodup_cons] at hn
      rw [List.lookup_cons]
      rcases List.mem_cons.mp h with e | h
      · cases e; simp
      · have : k ≠ k' := fun e => hn.1 (by rw [← e]; exact List.mem_map_of_mem (f := (·.1)) h)
        have hb : (k == k') = false := by simpa using this
        rw [hb]
        exact mem_lookup hn.2 h

theorem size_entry {e : String × JsJson} {l : List (String × JsJson)} (h : e ∈ l) : sizeOf e.2 < sizeOf l := by
  have := List.sizeOf_lt_of_mem h
  obtain ⟨k, x⟩ := e
  simp only [Prod.mk.sizeOf_spec] at this
  simp only
  omega

theorem sameMap_split : ∀ {m1 m2 l : List (String × JsJson)}, SameMap l (m1 ++ m2) → ∃ a b, l = a ++ b ∧ SameMap a m1 ∧ SameMap b m2
  | [], m2, l, h => ⟨[], l, rfl, .nil, h⟩
  | e :: m1, m2, l, h => by
      cases h with
      | cons h1 h2 =>
        obtain ⟨a, b, rfl, h3, h4⟩ := sameMap_split h2
        exact ⟨_ :: a, b, rfl, .cons h1 h3, h4⟩

theorem sameMap_append : ∀ {a b m1 m2 : List (String × JsJson)}, SameMap a m1 → SameMap b m2 → SameMap (a ++ b) (m1 ++ m2)
  | _, _, _, _, .nil, h => h
  | _, _, _, _, .cons h1 h2, h => .cons h1 (sameMap_append h2 h)

theorem sameMap_of : ∀ {l : List (String × JsJson)} {m : List (String × JsJson)}, (l.map (·.1)).Nodup → l.length = m.length →
    (∀ e ∈ l, ∃ w, (e.1, w) ∈ m ∧ Same e.2 w) → ∃ l', l.Perm l' ∧ SameMap l' m
  | [], m, _, hl, _ => by
      cases m with
      | nil => exact ⟨[], .nil, .nil⟩
      | cons => cases hl
  | (k, v) :: l, m, hn, hl, h => by
      simp only [List.map_cons, List.nodup_cons] at hn
      obtain ⟨w, hw, hs⟩ := h _ List.mem_cons_self
      obtain ⟨m1, m2, rfl⟩ := List.append_of_mem hw
      obtain ⟨l', hp, hs'⟩ := sameMap_of (l := l) (m := m1 ++ m2) hn.2 (by simp at hl ⊢; omega) fun e he => by
        obtain ⟨w', hw', hs'⟩ := h e (List.mem_cons_of_mem _ he)
        refine ⟨w', ?_, hs'⟩
        simp only [List.mem_append, List.mem_cons] at hw' ⊢
        rcases hw' with hw' | hw' | hw'
        · exact .inl hw'
        · have : e.1 = k := by cases hw'; rfl
          exact absurd (this ▸ List.mem_map_of_mem (f := (·.1)) he) hn.1
        · exact .inr hw'
      obtain ⟨a, b, rfl, h1, h2⟩ := sameMap_split hs'
      refine ⟨a ++ (k, v) :: b, ?_, sameMap_append h1 (.cons hs h2)⟩
      exact (hp.cons _).trans List.perm_middle.symm

theorem jeq_same (n : Nat) : ∀ {a b : JsJson}, sizeOf a ≤ n → Distinct a → jeq a b = true → Same a b := by
  induction n with
  | zero => intro a b h; cases a <;> simp at h
  | succ n ih =>
    intro a b hn hd h
    cases a with
    | tru => cases b <;> simp [jeq] at h; exact .tru
    | fls => cases b <;> simp [jeq] at h; exact .fls
    | null => cases b <;> simp [jeq] at h; exact .null
    | str s => cases b <;> simp [jeq] at h; subst h; exact .str _
    | num s => cases b <;> simp [jeq] at h; subst h; exact .num _
    | list l =>
      cases b <;> simp only [jeq] at h <;> try (cases h; done)
      rename_i m
      simp only [Distinct, distinctAll_iff] at hd
      simp only [JsJson.list.sizeOf_spec] at hn
      have key : ∀ {l m : List JsJson}, sizeOf l ≤ n → (∀ x ∈ l, Distinct x) → jeqList l m = true → SameList l m := by
        intro l
        induction l with
        | nil => intro m _ _ h; cases m <;> simp [jeqList] at h; exact .nil
        | cons x l ihl =>
          intro m hs hd h
          cases m with
          | nil => simp [jeqList] at h
          | cons y m =>
            simp only [jeqList, Bool.and_eq_true] at h
            simp only [List.cons.sizeOf_spec] at hs
            exact .cons (ih (by omega) (hd x List.mem_cons_self) h.1) (ihl (by omega) (fun z hz => hd z (List.mem_cons_of_mem _ hz)) h.2)
      exact .list (key (by omega) hd h)
    | obj l =>
      cases b <;> simp only [jeq] at h <;> try (cases h; done)
      rename_i m
      simp only [Distinct, distinctMap_iff] at hd
      simp only [Bool.and_eq_true, beq_iff_eq, jeqMap_iff] at h
      simp only [JsJson.obj.sizeOf_spec] at hn
      obtain ⟨l', hp, hs⟩ := sameMap_of (l := l) (m := m) hd.1 h.1 fun e he => by
        obtain ⟨w, h1, h2⟩ := h.2 e he
        exact ⟨w, lookup_mem h1, ih (by have := size_entry he; omega) (hd.2 e he) h2⟩
      exact .obj hp hs

mutual
theorem same_jeq {a b : JsJson} (h : Same a b) (hb : Distinct b) : jeq a b = true := by
  match h with
  | .tru => rfl
  | .fls => rfl
  | .null => rfl
  | .str s => simp [jeq]
  | .num s => simp [jeq]
  | .list h =>
    simp only [Distinct] at hb
    simp only [jeq]
    exact sameList_jeq h hb
  | .obj (l := l) (l' := l') (m := m) hp hs =>
    simp only [Distinct] at hb
    have h1 := sameMap_jeq hs hb.2
    have h2 := sameMap_keys hs
    have h3 := hp.length_eq
    have h4 : l'.length = m.length := by rw [← List.length_map (f := (·.1)), h2, List.length_map]
    simp only [jeq, Bool.and_eq_true, beq_iff_eq, jeqMap_iff]
    refine ⟨h3.trans h4, fun e he => ?_⟩
    obtain ⟨w, hw, h⟩ := h1 e (hp.subset he)
    exact ⟨w, mem_lookup hb.1 hw, h⟩
theorem sameList_jeq {l m : List JsJson} (h : SameList l m) (hm : DistinctAll m) : jeqList l m = true := by
  match h with
  | .nil => rfl
  | .cons h1 h2 =>
    simp only [DistinctAll] at hm
    simp only [jeqList, same_jeq h1 hm.1, sameList_jeq h2 hm.2, Bool.and_self]
theorem sameMap_jeq {l m : List (String × JsJson)} (h : SameMap l m) (hm : DistinctMap m) : ∀ e ∈ l, ∃ w, (e.1, w) ∈ m ∧ jeq e.2 w = true := by
  match h with
  | .nil => intro e he; cases he
  | .cons h1 h2 =>
    simp only [DistinctMap] at hm
    intro e he
    rcases List.mem_cons.mp he with rfl | he
    · exact ⟨_, List.mem_cons_self, same_jeq h1 hm.1⟩
    · obtain ⟨w, hw, h⟩ := sameMap_jeq h2 hm.2 e he
      exact ⟨w, List.mem_cons_of_mem _ hw, h⟩
end

theorem sameMap_perm {l m : List (String × JsJson)} (h : SameMap l m) : ∀ {m' : List (String × JsJson)}, m.Perm m' → ∃ l', l.Perm l' ∧ SameMap l' m' := by
  intro m' hp
  induction hp generalizing l with
  | nil => exact ⟨l, .refl _, h⟩
  | cons x _ ih =>
    cases h with
    | cons h1 h2 =>
      obtain ⟨l', h3, h4⟩ := ih h2
      exact ⟨_ :: l', h3.cons _, .cons h1 h4⟩
  | swap x y l =>
    cases h with
    | cons h1 h2 =>
      cases h2 with
      | cons h2 h3 => exact ⟨_, .swap _ _ _, .cons h2 (.cons h1 h3)⟩
  | trans _ _ ih1 ih2 =>
    obtain ⟨m1, h1, h2⟩ := ih1 h
    obtain ⟨m2, h3, h4⟩ := ih2 h2
    exact ⟨m2, h1.trans h3, h4⟩

mutual
theorem same_symm {a b : JsJson} (h : Same a b) : Same b a := by
  match h with
  | .tru => exact .tru
  | .fls => exact .fls
  | .null => exact .null
  | .str s => exact .str s
  | .num s => exact .num s
  | .list h => exact .list (sameList_symm h)
  | .obj hp hs =>
    obtain ⟨m', h1, h2⟩ := sameMap_perm (sameMap_symm hs) hp.symm
    exact .obj h1 h2
theorem sameList_symm {l m : List JsJson} (h : SameList l m) : SameList m l := by
  match h with
  | .nil => exact .nil
  | .cons h1 h2 => exact .cons (same_symm h1) (sameList_symm h2)
theorem sameMap_symm {l m : List (String × JsJson)} (h : SameMap l m) : SameMap m l := by
  match h with
  | .nil => exact .nil
  | .cons h1 h2 => exact .cons (same_symm h1) (sameMap_symm h2)
end

mutual
theorem same_self : ∀ a : JsJson, Same a a
  | .tru => .tru
  | .fls => .fls
  | .null => .null
  | .str s => .str s
  | .num b => .num b
  | .list l => .list (sameList_self l)
  | .obj l => .obj (.refl _) (sameMap_self l)
theorem sameList_self : ∀ l : List JsJson, SameList l l
  | [] => .nil
  | a :: l => .cons (same_self a) (sameList_self l)
theorem sameMap_self : ∀ l : List (String × JsJson), SameMap l l
  | [] => .nil
  | (_, a) :: l => .cons (same_self a) (sameMap_self l)
end

mutual
theorem same_trans {a b c : JsJson} (h : Same a b) (h' : Same b c) : Same a c := by
  match h with
  | .tru => exact h'
  | .fls => exact h'
  | .null => exact h'
  | .str s => exact h'
  | .num s => exact h'
  | .list h =>
    cases h' with
    | list h' => exact .list (sameList_trans h h')
  | .obj hp hs =>
    cases h' with
    | obj hp' hs' =>
      obtain ⟨q, h1, h2⟩ := sameMap_perm (sameMap_symm hs') hp'.symm
      obtain ⟨l'', h3, h4⟩ := sameMap_perm (sameMap_trans hs (sameMap_symm h2)) h1.symm
      exact .obj (hp.trans h3) h4
theorem sameList_trans {l m p : List JsJson} (h : SameList l m) (h' : SameList m p) : SameList l p := by
  match h with
  | .nil => exact h'
  | .cons h1 h2 =>
    cases h' with
    | cons h1' h2' => exact .cons (same_trans h1 h1') (sameList_trans h2 h2')
theorem sameMap_trans {l m p : List (String × JsJson)} (h : SameMap l m) (h' : SameMap m p) : SameMap l p := by
  match h with
  | .nil => exact h'
  | .cons h1 h2 =>
    cases h' with
    | cons h1' h2' => exact .cons (same_trans h1 h1') (sameMap_trans h2 h2')
end

mutual
theorem same_writes {a b : JsJson} (h : Same a b) (hs : Single a) : writes a = writes b := by
  match h with
  | .tru => rfl
  | .fls => rfl
  | .null => rfl
  | .str s => rfl
  | .num s => rfl
  | .list h =>
    simp only [Single] at hs
    simp only [writes, sameList_writes h hs]
  | .obj (l := l) (l' := l') (m := m) hp h =>
    simp only [Single] at hs
    have : l' = l := by
      match l, hs.1, hp with
      | [], _, hp => exact hp.nil_eq.symm
      | [x], _, hp => exact (List.perm_singleton.mp hp.symm)
    rw [writes, writes, ← sameMap_writes h (by rw [this]; exact hs.2), this]
theorem sameList_writes {l m : List JsJson} (h : SameList l m) (hs : SingleAll l) : writesList l = writesList m := by
  match h with
  | .nil => rfl
  | .cons h1 h2 =>
    simp only [SingleAll] at hs
    simp only [writesList, same_writes h1 hs.1, sameList_writes h2 hs.2]
theorem sameMap_writes {l m : List (String × JsJson)} (h : SameMap l m) (hs : SingleMap l) : writesMap l = writesMap m := by
  match h with
  | .nil => rfl
  | .cons h1 h2 =>
    simp only [SingleMap] at hs
    simp only [writesMap, same_writes h1 hs.1, sameMap_writes h2 hs.2]
end

/-! ## C73 -/

/-- **C73.** Two values are equal exactly if they have the same content: the order of the entries of an object does not count, the one of the items of
a list does, and numbers are the same if they have the same bits. -/
theorem C73_equal {a b : JsJson} (ha : Distinct a) (hb : Distinct b) : jeq a b = true ↔ Same a b :=
  ⟨jeq_same _ (Nat.le_refl _) ha, fun h => same_jeq h hb⟩

/-- **C73.** It is an equivalence relation, as `Eq` promises (also for numbers that are not numbers). -/
theorem C73_equivalence {a b c : JsJson} (ha : Distinct a) (hb : Distinct b) (hc : Distinct c) :
    jeq a a = true ∧ (jeq a b = true → jeq b a = true) ∧ (jeq a b = true → jeq b c = true → jeq a c = true) :=
  ⟨(C73_equal ha ha).2 (same_self a), fun h => (C73_equal hb ha).2 (same_symm ((C73_equal ha hb).1 h)),
    fun h h' => (C73_equal ha hc).2 (same_trans ((C73_equal ha hb).1 h) ((C73_equal hb hc).1 h'))⟩

/-- **C73, in part.** Equal values give the same to the hasher, if no object has more than one entry. -/
theorem C73_hash_partial {a b : JsJson} (ha : Distinct a) (hs : Single a) (h : jeq a b = true) : writes a = writes b :=
  same_writes (jeq_same _ (Nat.le_refl _) ha h) hs

/-- **C73, limit.** Every object with more than one entry is equal to one, with the same entries, that gives something else to the hasher. So a map with
JSON values as keys does not find them. -/
theorem C73_hash_violated {l : List (String × JsJson)} (hd : Distinct (.obj l)) (h : 2 ≤ l.length) :
    ∃ m, m.Perm l ∧ jeq (.obj l) (.obj m) = true ∧ writes (.obj l) ≠ writes (.obj m) := by
  match l, h, hd with
  | (k, v) :: (k', v') :: l, _, hd =>
    have hk : k ≠ k' := by
      have := hd.1
      simp at this
      exact this.1.1
    refine ⟨(k', v') :: (k, v) :: l, .swap _ _ _, same_jeq (.obj (.swap _ _ _) (sameMap_self _)) ?_, ?_⟩
    · have hp : ((k, v) :: (k', v') :: l).Perm ((k', v') :: (k, v) :: l) := .swap _ _ _
      simp only [Distinct, distinctMap_iff] at hd ⊢
      exact ⟨(hp.map (·.1)).nodup_iff.mp hd.1, fun e he => hd.2 e (hp.symm.subset he)⟩
    · simp [writes, writesMap, hk]

/-! ## Non-vacuity -/

/-- `{ "a": [1, {}], "b": null }` in both orders. -/
def exampleObject : JsJson := .obj [("a", .list [.num 4607182418800017408, .obj []]), ("b", .null)]
def exampleObject' : JsJson := .obj [("b", .null), ("a", .list [.num 4607182418800017408, .obj []])]

example : Distinct exampleObject ∧ Distinct exampleObject' ∧ jeq exampleObject exampleObject' = true ∧
    jeq exampleObject (.obj [("a", .list [.obj [], .num 4607182418800017408]), ("b", .null)]) = false :=
  ⟨by simp [exampleObject, Distinct, DistinctMap, DistinctAll], by simp [exampleObject', Distinct, DistinctMap, DistinctAll], by decide +kernel,
    by decide +kernel⟩

example : Distinct (.list [.obj [("a", .obj [])], .str "x"]) ∧ Single (.list [.obj [("a", .obj [])], .str "x"]) := by
  simp [Distinct, DistinctMap, DistinctAll, Single, SingleMap, SingleAll]

end Verif.Json
