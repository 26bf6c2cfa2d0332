import Verif.Json.Typed
import Mathlib.Data.List.Perm.Basic
/-!
# C18, C19: typed JSON round trips, and what the derive macro generates is faithful
-/
namespace Verif.Json

open Verif.Codec (JsJson)

/-! ## Specification -/

/-- Keys strictly increasing: the canonical form of a map. -/
def Sorted {α : Type} (l : List (String × α)) : Prop := l.Pairwise fun a b => a.1 < b.1

/-- The integers of a type. -/
def InRange : Ty → Int → Prop
  | .u32, i => 0 ≤ i ∧ i ≤ 2 ^ 32 - 1
  | .i32, i => -2 ^ 31 ≤ i ∧ i ≤ 2 ^ 31 - 1
  | .u64, i => 0 ≤ i ∧ i ≤ 2 ^ 64 - 1
  | .i64, i => -2 ^ 63 ≤ i ∧ i ≤ 2 ^ 63 - 1
  | _, _ => False

/-- Integers that survive the detour through `f64`. -/
def Survives (t : Ty) (i : Int) : Prop :=
  InRange t i ∧ (Representable i ∨ (t = .u64 ∧ i = 2 ^ 64 - 1) ∨ (t = .i64 ∧ i = 2 ^ 63 - 1))

mutual
/-- `v` is a value of type `t`, all of its integers satisfying `P`. -/
def HasTy (P : Ty → Int → Prop) (env : Env) : Val → Ty → Prop
  | .str _, .string => True
  | .bool _, .bool => True
  | .unit, .unit => True
  | .int i, t => P t i
  | .vec l, .vec t => HasTyAll P env l t
  | .none, .option _ => True
  | .some v, .option t => HasTy P env v t
  | .map l, .hashMap t => Sorted l ∧ HasTyMap P env l t
  | .map l, .btreeMap t => Sorted l ∧ HasTyMap P env l t
  | .struct vs, .user n => ∃ f, env n = .struct f ∧ HasTyTuple P env vs f.types
  | .variant name vs, .user n => ∃ l f, env n = .enum l ∧ (name, f) ∈ l ∧ HasTyTuple P env vs f.types
  | _, _ => False
def HasTyAll (P : Ty → Int → Prop) (env : Env) : List Val → Ty → Prop
  | [], _ => True
  | v :: l, t => HasTy P env v t ∧ HasTyAll P env l t
def HasTyMap (P : Ty → Int → Prop) (env : Env) : List (String × Val) → Ty → Prop
  | [], _ => True
  | (_, v) :: l, t => HasTy P env v t ∧ HasTyMap P env l t
def HasTyTuple (P : Ty → Int → Prop) (env : Env) : List Val → List Ty → Prop
  | [], [] => True
  | v :: l, t :: ts => HasTy P env v t ∧ HasTyTuple P env l ts
  | _, _ => False
end

/-- Types whose values are never represented by `null`. -/
inductive NoNull (env : Env) : Ty → Prop where
  | string : NoNull env .string
  | bool : NoNull env .bool
  | unit : NoNull env .unit
  | u32 : NoNull env .u32
  | i32 : NoNull env .i32
  | u64 : NoNull env .u64
  | i64 : NoNull env .i64
  | vec (t) : NoNull env (.vec t)
  | hashMap (t) : NoNull env (.hashMap t)
  | btreeMap (t) : NoNull env (.btreeMap t)
  | user (n) : (∀ t, env n ≠ .struct (.unnamed [t])) → NoNull env (.user n)
  | newtype {n t} : env n = .struct (.unnamed [t]) → NoNull env t → NoNull env (.user n)

/-- Options are only built over types without `null`. -/
def WfTy (env : Env) : Ty → Prop
  | .option t => NoNull env t ∧ WfTy env t
  | .vec t => WfTy env t
  | .hashMap t => WfTy env t
  | .btreeMap t => WfTy env t
  | _ => True

def WfFields (env : Env) (f : Fields) : Prop :=
  (∀ t ∈ f.types, WfTy env t) ∧ ∀ fs, f = .named fs → (fs.map (·.name)).Nodup

/-- The definitions: field names of a struct and variant names of an enum are distinct (as the
Rust compiler demands), and the options are as above. -/
def WfEnv (env : Env) : Prop := ∀ n,
  match env n with
  | .struct f => WfFields env f
  | .enum l => (l.map (·.1)).Nodup ∧ ∀ e ∈ l, WfFields env e.2

mutual
/-- The same JSON: objects are hash maps, the order of their entries does not count. -/
inductive Same : JsJson → JsJson → Prop where
  | tru : Same .tru .tru
  | fls : Same .fls .fls
  | null : Same .null .null
  | str (s) : Same (.str s) (.str s)
  | num (b) : Same (.num b) (.num b)
  | list {l m} : SameList l m → Same (.list l) (.list m)
  | obj {l l' m} : l.Perm l' → SameMap l' m → Same (.obj l) (.obj m)
inductive SameList : List JsJson → List JsJson → Prop where
  | nil : SameList [] []
  | cons {a b l m} : Same a b → SameList l m → SameList (a :: l) (b :: m)
inductive SameMap : List (String × JsJson) → List (String × JsJson) → Prop where
  | nil : SameMap [] []
  | cons {k a b l m} : Same a b → SameMap l m → SameMap ((k, a) :: l) ((k, b) :: m)
end

mutual
/-- An upper bound for the depth of the calls. -/
def Val.size : Val → Nat
  | .vec l => 1 + sizeAll l
  | .some v => 1 + v.size
  | .map l => 1 + sizeMap l
  | .struct l => 1 + sizeAll l
  | .variant _ l => 1 + sizeAll l
  | _ => 1
def sizeAll : List Val → Nat
  | [] => 0
  | v :: l => v.size + sizeAll l
def sizeMap : List (String × Val) → Nat
  | [] => 0
  | (_, v) :: l => v.size + sizeMap l
end

/-! ## Proofs: maps -/

theorem mapInsert_keys {α : Type} {k : String} {v : α} {l : List (String × α)} (h : ∀ e ∈ l, e.1 ≠ k) :
    (mapInsert k v l).Perm ((k, v) :: l) := by
  induction l with
  | nil => exact .refl _
  | cons e l ih =>
    simp only [mapInsert]
    split
    · exact .refl _
    · rw [if_neg (h e (by simp))]
      exact ((ih fun x hx => h x (List.mem_cons_of_mem _ hx)).cons e).trans (.swap _ _ _)

theorem str_lt_of {a b : String} (h1 : ¬ a < b) (h2 : b ≠ a) : b < a := by
  by_cases h : b < a
  · exact h
  · exact absurd (String.le_antisymm (String.not_lt.mp h1) (String.not_lt.mp h)) h2

theorem mapInsert_sorted {α : Type} {k : String} {v : α} {l : List (String × α)} (hs : Sorted l) (h : ∀ e ∈ l, e.1 ≠ k) :
    Sorted (mapInsert k v l) := by
  induction l with
  | nil => simp [mapInsert, Sorted]
  | cons e l ih =>
    obtain ⟨s1, s2⟩ := List.pairwise_cons.mp hs
    have hne := h e (by simp)
    simp only [mapInsert]
    split
    · rename_i hlt
      refine List.pairwise_cons.mpr ⟨fun x hx => ?_, hs⟩
      rcases List.mem_cons.mp hx with rfl | hx
      · exact hlt
      · exact String.lt_trans hlt (s1 x hx)
    · rename_i hlt
      refine List.pairwise_cons.mpr ⟨fun x hx => ?_, ih s2 fun x hx => h x (List.mem_cons_of_mem _ hx)⟩
      rcases List.mem_cons.mp ((mapInsert_keys fun x hx => h x (List.mem_cons_of_mem _ hx)).mem_iff.mp hx) with rfl | hx
      · exact str_lt_of hlt hne
      · exact s1 x hx

theorem sorted_perm_eq {α : Type} {l m : List (String × α)} (hl : Sorted l) (hm : Sorted m) (h : l.Perm m) : l = m := by
  induction l generalizing m with
  | nil => exact h.nil_eq
  | cons a l ih =>
    cases m with
    | nil => exact absurd h.length_eq (by simp)
    | cons b m =>
      obtain ⟨l1, l2⟩ := List.pairwise_cons.mp hl
      obtain ⟨m1, m2⟩ := List.pairwise_cons.mp hm
      have hab : a = b := by
        rcases List.mem_cons.mp (h.mem_iff.mp (List.mem_cons_self : a ∈ a :: l)) with e | ha
        · exact e
        rcases List.mem_cons.mp (h.mem_iff.mpr (List.mem_cons_self : b ∈ b :: m)) with e | hb
        · exact e.symm
        exact absurd (String.lt_trans (m1 a ha) (l1 b hb)) (String.lt_irrefl _)
      subst hab
      rw [ih l2 m2 (List.perm_cons a |>.mp h)]

theorem foldInsert {α : Type} : ∀ (l acc : List (String × α)), Sorted acc → ((acc ++ l).map (·.1)).Nodup →
    Sorted (l.foldl (fun r e => mapInsert e.1 e.2 r) acc) ∧ (l.foldl (fun r e => mapInsert e.1 e.2 r) acc).Perm (acc ++ l)
  | [], acc, hs, _ => ⟨hs, by simp⟩
  | e :: l, acc, hs, hn => by
      have hne : ∀ x ∈ acc, x.1 ≠ e.1 := by
        intro x hx heq
        rw [List.map_append, List.nodup_append] at hn
        exact hn.2.2 x.1 (List.mem_map.mpr ⟨x, hx, rfl⟩) e.1 (by simp) heq
      have hp := mapInsert_keys (v := e.2) hne
      have hp2 : (mapInsert e.1 e.2 acc ++ l).Perm (acc ++ e :: l) :=
        (hp.append_right l).trans List.perm_middle.symm
      obtain ⟨h1, h2⟩ := foldInsert l (mapInsert e.1 e.2 acc) (mapInsert_sorted hs hne)
        ((hp2.map _).nodup_iff.mpr hn)
      exact ⟨h1, h2.trans hp2⟩

theorem sorted_nodup {α : Type} {l : List (String × α)} (h : Sorted l) : (l.map (·.1)).Nodup := by
  refine List.Pairwise.map _ ?_ h
  intro a b hab heq
  rw [heq] at hab
  exact String.lt_irrefl _ hab

theorem foldInsert_eq {α : Type} {l l' : List (String × α)} (hs : Sorted l) (hp : l'.Perm l) :
    l'.foldl (fun r e => mapInsert e.1 e.2 r) [] = l := by
  obtain ⟨h1, h2⟩ := foldInsert l' [] .nil (by simpa using (hp.map _).nodup_iff.mpr (sorted_nodup hs))
  exact sorted_perm_eq h1 hs (h2.trans (by simpa using hp))

theorem decodeMap_eq {f : Ctx → JsJson → Res Val} {ctx : Ctx} : ∀ {js : List (String × JsJson)} {l acc : List (String × Val)},
    List.Forall₂ (fun a b => a.1 = b.1 ∧ ∀ c, f c a.2 = .ok b.2) js l →
    decodeMap f ctx acc js = .ok (l.foldl (fun r e => mapInsert e.1 e.2 r) acc)
  | [], [], acc, _ => rfl
  | (k, j) :: js, (k', v) :: l, acc, .cons ⟨h1, h2⟩ h => by
      simp only at h1 h2
      subst h1
      simp only [decodeMap, h2, Res.bind, List.foldl_cons]
      exact decodeMap_eq h

/-! ## Proofs: lookups -/

theorem mapGet_perm {α : Type} {l m : List (String × α)} (h : l.Perm m) (hn : (m.map (·.1)).Nodup) (k : String) :
    mapGet k l = mapGet k m := by
  have key : ∀ {l m : List (String × α)}, (l.map (·.1)).Nodup → (m.map (·.1)).Nodup → (∀ e, e ∈ l → e ∈ m) → ∀ v, mapGet k l = some v → mapGet k m = some v := by
    intro l m _ hm hsub v hv
    simp only [mapGet, Option.map_eq_some_iff] at hv
    obtain ⟨e, he, rfl⟩ := hv
    have h1 : e ∈ m := hsub e (List.mem_of_find?_eq_some he)
    have h2 : e.1 = k := by simpa using List.find?_some he
    have : ∀ {m : List (String × α)}, (m.map (·.1)).Nodup → e ∈ m → m.find? (·.1 = k) = some e := by
      intro m
      induction m with
      | nil => intro _ h; cases h
      | cons x m ih =>
        intro hn hm
        rw [List.map_cons, List.nodup_cons] at hn
        rw [List.find?_cons]
        by_cases hx : x.1 = k
        · simp only [hx, decide_true]
          rcases List.mem_cons.mp hm with rfl | hm
          · rfl
          · exact absurd (List.mem_map.mpr ⟨e, hm, by rw [h2, hx]⟩) hn.1
        · simp only [hx, decide_false]
          rcases List.mem_cons.mp hm with rfl | hm
          · exact absurd h2 hx
          · exact ih hn.2 hm
    rw [mapGet, this hm h1]; rfl
  have hl := (h.map (·.1)).nodup_iff.mpr hn
  cases e1 : mapGet k l with
  | some v => exact (key hl hn (fun e => h.mem_iff.mp) v e1).symm
  | none =>
    cases e2 : mapGet k m with
    | none => rfl
    | some v => rw [key hn hl (fun e => h.mem_iff.mpr) v e2] at e1; cases e1

theorem sameMap_get {l m : List (String × JsJson)} (h : SameMap l m) (k : String) :
    (mapGet k l = none ∧ mapGet k m = none) ∨ ∃ a b, mapGet k l = some a ∧ mapGet k m = some b ∧ Same a b := by
  match h with
  | .nil => exact .inl ⟨rfl, rfl⟩
  | .cons (k := k') (a := a) (b := b) h1 h2 =>
    by_cases hk : k' = k
    · exact .inr ⟨a, b, by simp [mapGet, hk], by simp [mapGet, hk], h1⟩
    · have := sameMap_get h2 k
      simpa [mapGet, hk] using this

theorem sameMap_keys {l m : List (String × JsJson)} (h : SameMap l m) : l.map (·.1) = m.map (·.1) := by
  match h with
  | .nil => rfl
  | .cons h1 h2 => simp [sameMap_keys h2]

theorem sameList_length {l m : List JsJson} (h : SameList l m) : l.length = m.length := by
  match h with
  | .nil => rfl
  | .cons h1 h2 => simp [sameList_length h2]

/-! ## Proofs: sequences of fields -/

theorem decodeVec_eq {f : Ctx → JsJson → Res Val} {ctx : Ctx} : ∀ {js : List JsJson} {l : List Val} {i},
    List.Forall₂ (fun a b => ∀ c, f c a = .ok b) js l → decodeVec f ctx i js = .ok l
  | [], [], _, _ => rfl
  | _ :: _, _ :: _, _, .cons h1 h2 => by simp only [decodeVec, h1, Res.bind, decodeVec_eq h2]

/-- `ts`, `js`, `vs` correspond. -/
inductive Decodes (f : Ty → JsJson → Res Val) : List Ty → List JsJson → List Val → Prop where
  | nil : Decodes f [] [] []
  | cons {t ts j js v vs} : f t j = .ok v → Decodes f ts js vs → Decodes f (t :: ts) (j :: js) (v :: vs)

theorem decodeTuple_eq {f : Ty → JsJson → Res Val} : ∀ {ts js vs}, Decodes f ts js vs → decodeTuple f ts js.reverse = .ok vs
  | _, _, _, .nil => rfl
  | _, _, _, .cons h1 h2 => by
      simp only [decodeTuple, List.reverse_cons, List.getLast?_append, List.getLast?_singleton, Option.some_or, h1, Res.bind,
        List.dropLast_concat, decodeTuple_eq h2]

theorem decodes_length {f : Ty → JsJson → Res Val} : ∀ {ts js vs}, Decodes f ts js vs → js.length = ts.length
  | _, _, _, .nil => rfl
  | _, _, _, .cons _ h2 => by simp [decodes_length h2]

theorem mapGet_filter {α : Type} {l : List (String × α)} {k k' : String} (h : k ≠ k') :
    mapGet k (l.filter (·.1 ≠ k')) = mapGet k l := by
  induction l with
  | nil => rfl
  | cons e l ih =>
    by_cases he : e.1 = k'
    · have : e.1 ≠ k := fun h' => h (h'.symm.trans he)
      rw [List.filter_cons_of_neg (by simp [he]), ih]
      simp [mapGet, this]
    · rw [List.filter_cons_of_pos (by simp [he])]
      by_cases hk : e.1 = k
      · simp [mapGet, hk]
      · simpa [mapGet, hk] using ih

theorem decodeNamed_eq {f : Ctx → Ty → JsJson → Res Val} {ctx : Ctx} {ud : Bool} : ∀ {fs : List Field} {obj : List (String × JsJson)} {vs : List Val},
    (fs.map (·.name)).Nodup →
    List.Forall₂ (fun fl v => ∃ j, mapGet fl.name obj = some j ∧ ∀ c, f c fl.ty j = .ok v) fs vs →
    decodeNamed f ctx ud fs (.obj obj) = .ok vs
  | [], _, [], _, _ => rfl
  | fl :: fs, obj, v :: vs, hn, .cons ⟨j, h1, h2⟩ h => by
      rw [List.map_cons, List.nodup_cons] at hn
      have hd : ∀ d, orDefault d (Res.ok v) = .ok v := by intro d; cases d <;> rfl
      simp only [decodeNamed, getProperty, h1, h2, hd, Res.bind]
      rw [decodeNamed_eq hn.2 ?_]
      have : ∀ x ∈ fs, x.name ≠ fl.name := fun x hx e => hn.1 (List.mem_map.mpr ⟨x, hx, e⟩)
      clear hn h1 h2 hd
      induction h with
      | nil => exact .nil
      | @cons x w xs ws hx _ ih =>
        obtain ⟨j', e1, e2⟩ := hx
        exact .cons ⟨j', by rw [mapGet_filter (this x (by simp))]; exact e1, e2⟩ (ih fun y hy => this y (by simp [hy]))

theorem mapGet_zip : ∀ {fs : List Field} {js : List JsJson} {R : Field → JsJson → Prop},
    (fs.map (·.name)).Nodup → List.Forall₂ R fs js →
    List.Forall₂ (fun fl j => R fl j ∧ mapGet fl.name ((fs.map (·.name)).zip js) = some j) fs js := by
  intro fs js R hn h
  induction h with
  | nil => exact .nil
  | @cons fl j fs js h1 h2 ih =>
    rw [List.map_cons, List.nodup_cons] at hn
    refine .cons ⟨h1, by simp [mapGet]⟩ ?_
    have ih := ih hn.2
    have hne : ∀ x ∈ fs, fl.name ≠ x.name := fun x hx e => hn.1 (List.mem_map.mpr ⟨x, hx, e.symm⟩)
    clear hn h2
    have gen : ∀ {xs : List Field} {ys : List JsJson} {m : List (String × JsJson)}, (∀ x ∈ xs, fl.name ≠ x.name) →
        List.Forall₂ (fun fl j => R fl j ∧ mapGet fl.name m = some j) xs ys →
        List.Forall₂ (fun x y => R x y ∧ mapGet x.name ((fl.name, j) :: m) = some y) xs ys := by
      intro xs ys m hx h
      induction h with
      | nil => exact .nil
      | cons h1 _ ih =>
        refine .cons ⟨h1.1, ?_⟩ (ih fun x h => hx x (List.mem_cons_of_mem _ h))
        simpa [mapGet, hx _ List.mem_cons_self] using h1.2
    exact gen hne ih

/-! ## The round trip -/

theorem toJson_ne_null {P : Ty → Int → Prop} (hP : ∀ t i, P t i → InRange t i) {env : Env} {t : Ty} (h : NoNull env t) :
    ∀ v, HasTy P env v t → toJson env v t ≠ .null := by
  induction h with
  | newtype he _ ih =>
    intro v hv
    cases v <;> simp only [HasTy] at hv
    case int => exact absurd (hP _ _ hv) (by simp [InRange])
    case struct vs =>
      obtain ⟨f, hf, ht⟩ := hv
      rw [he] at hf; cases hf
      simp only [Fields.types] at ht
      match vs, ht with
      | [v], ht =>
        simp only [toJson, he, Fields.types, structJson, toJsonTuple, List.headD_cons]
        exact ih v ht.1
    case variant name vs =>
      obtain ⟨l, f, hf, _⟩ := hv
      rw [he] at hf; cases hf
  | user n hn =>
    intro v hv
    cases v <;> simp only [HasTy] at hv
    case int => exact absurd (hP _ _ hv) (by simp [InRange])
    case struct vs =>
      obtain ⟨f, hf, ht⟩ := hv
      simp only [toJson, hf]
      match f, hf with
      | .unit, _ => simp [structJson]
      | .unnamed [], _ => simp [structJson]
      | .unnamed [t], hf => exact absurd hf (hn t)
      | .unnamed (_ :: _ :: _), _ => simp [structJson]
      | .named _, _ => simp [structJson]
    case variant name vs =>
      obtain ⟨l, f, hf, hm, _⟩ := hv
      simp only [toJson, hf]
      have : ∃ g, findVariant name l = some g := by
        have : (l.find? (·.1 = name)).isSome := by
          rw [List.find?_isSome]; exact ⟨_, hm, by simp⟩
        obtain ⟨g, hg⟩ := Option.isSome_iff_exists.mp this
        exact ⟨g.2, by simp [findVariant, hg]⟩
      obtain ⟨g, hg⟩ := this
      rw [hg]
      simp only
      match g with
      | .unit => simp [variantJson]
      | .unnamed [] => simp [variantJson]
      | .unnamed [t] => simp [variantJson]
      | .unnamed (_ :: _ :: _) => simp [variantJson]
      | .named _ => simp [variantJson]
  | bool =>
    intro v hv
    cases v <;> simp only [HasTy] at hv
    case int => exact absurd (hP _ _ hv) (by simp [InRange])
    case bool b => cases b <;> simp [toJson]
  | u32 | i32 | u64 | i64 =>
    intro v hv
    cases v <;> simp only [HasTy] at hv
    simp [toJson]
  | _ =>
    intro v hv
    cases v <;> simp only [HasTy] at hv
    case int => exact absurd (hP _ _ hv) (by simp [InRange])
    all_goals simp [toJson]

theorem survives_range {t i} (h : Survives t i) : InRange t i := h.1

theorem findVariant_mem {name : String} {f : Fields} : ∀ {l : List (String × Fields)}, (l.map (·.1)).Nodup → (name, f) ∈ l → findVariant name l = some f
  | e :: l, hn, hm => by
      rw [List.map_cons, List.nodup_cons] at hn
      rcases List.mem_cons.mp hm with rfl | hm
      · simp [findVariant]
      · have : e.1 ≠ name := by rintro rfl; exact hn.1 (List.mem_map.mpr ⟨_, hm, rfl⟩)
        simpa [findVariant, this] using findVariant_mem hn.2 hm

theorem decodeSimple_eq {ctx : Ctx} {name : String} : ∀ {l : List (String × Fields)}, (l.map (·.1)).Nodup → (name, .unit) ∈ l →
    decodeSimple ctx name l = .ok (.variant name [])
  | (k, f) :: l, hn, hm => by
      rw [List.map_cons, List.nodup_cons] at hn
      rcases List.mem_cons.mp hm with e | hm
      · cases e; simp [decodeSimple]
      · have hk : k ≠ name := by rintro rfl; exact hn.1 (List.mem_map.mpr ⟨_, hm, rfl⟩)
        have ih := decodeSimple_eq (ctx := ctx) hn.2 hm
        cases f with
        | unit => simp only [decodeSimple, if_neg hk.symm]; exact ih
        | unnamed _ => simp only [decodeSimple]; exact ih
        | named _ => simp only [decodeSimple]; exact ih

/-- What is done with the content of a compound variant. -/
def decodeContent (f : Ctx → Ty → JsJson → Res Val) (ctx : Ctx) (name : String) (value : JsJson) : Fields → Res Val
  | .unit => .panic
  | .unnamed ts => decodeCompound f ctx [(name, value)] [(name, .unnamed ts)]
  | .named fs => decodeCompound f ctx [(name, value)] [(name, .named fs)]

theorem decodeCompound_eq {f : Ctx → Ty → JsJson → Res Val} {ctx : Ctx} {name : String} {value : JsJson} {g : Fields} (hg : g ≠ .unit) :
    ∀ {l : List (String × Fields)}, (l.map (·.1)).Nodup → (name, g) ∈ l →
    decodeCompound f ctx [(name, value)] l = decodeContent f ctx name value g
  | (k, x) :: l, hn, hm => by
      rw [List.map_cons, List.nodup_cons] at hn
      rcases List.mem_cons.mp hm with e | hm
      · cases e
        have hget : mapGet name [(name, value)] = some value := by simp [mapGet]
        cases g with
        | unit => exact absurd rfl hg
        | unnamed ts => simp only [decodeContent, decodeCompound, hget]
        | named fs => simp only [decodeContent, decodeCompound, hget]
      · have hk : k ≠ name := by rintro rfl; exact hn.1 (List.mem_map.mpr ⟨_, hm, rfl⟩)
        have hget : mapGet k [(name, value)] = none := by simp [mapGet, hk.symm]
        have ih := decodeCompound_eq (f := f) (ctx := ctx) (value := value) hg hn.2 hm
        cases x with
        | unit => simp only [decodeCompound]; exact ih
        | unnamed _ => simp only [decodeCompound, hget]; exact ih
        | named _ => simp only [decodeCompound, hget]; exact ih

theorem same_single {k : String} {v : JsJson} {l : List (String × JsJson)} (h : Same (.obj l) (.obj [(k, v)])) :
    ∃ v', l = [(k, v')] ∧ Same v' v := by
  cases h with
  | obj hp hs =>
    cases hs with
    | cons h1 h2 =>
      cases h2
      exact ⟨_, List.perm_singleton.mp hp, h1⟩

theorem decodes_forall {f : Ty → JsJson → Res Val} : ∀ {fs : List Field} {js vs}, Decodes f (fs.map (·.ty)) js vs →
    ∃ _ : fs.length = vs.length, List.Forall₂ (fun fl j => ∃ v, f fl.ty j = .ok v) fs js
  | [], _, _, .nil => ⟨rfl, .nil⟩
  | fl :: fs, _, _, .cons h1 h2 => by
      obtain ⟨e, h⟩ := decodes_forall h2
      exact ⟨by simp [e], .cons ⟨_, h1⟩ h⟩

theorem toJsonTuple_length {P env} : ∀ {vs ts}, HasTyTuple P env vs ts → (toJsonTuple env vs ts).length = ts.length
  | [], [], _ => rfl
  | v :: vs, t :: ts, h => by simp only [toJsonTuple, List.length_cons, toJsonTuple_length h.2]

/-- Named fields, found in an object that has the encodings of their values. -/
theorem named_lookup {f : Ctx → Ty → JsJson → Res Val} {fs : List Field} {vs : List Val} {js : List JsJson} {l : List (String × JsJson)}
    (hn : (fs.map (·.name)).Nodup) (hlen : js.length = fs.length)
    (hdec : ∀ js', SameList js' js → ∀ c, Decodes (f c) (fs.map (·.ty)) js' vs)
    (hs : Same (.obj l) (.obj ((fs.map (·.name)).zip js))) :
    List.Forall₂ (fun fl v => ∃ j, mapGet fl.name l = some j ∧ ∀ c, f c fl.ty j = .ok v) fs vs := by
  cases hs with
  | @obj _ l' _ hp hs =>
    have hk : l'.map (·.1) = fs.map (·.name) := by
      rw [sameMap_keys hs, List.map_fst_zip (by simp [hlen])]
    have hget : ∀ k, mapGet k l = mapGet k l' := mapGet_perm hp (by rw [hk]; exact hn)
    simp only [hget]
    -- the values of `l'`
    have hval : SameList (l'.map (·.2)) js := by
      have : ∀ {l' : List (String × JsJson)} {ns : List String} {js : List JsJson}, ns.length = js.length → SameMap l' (ns.zip js) → SameList (l'.map (·.2)) js := by
        intro l' ns
        induction ns generalizing l' with
        | nil =>
          intro js hl h
          cases js with
          | nil => cases h; exact .nil
          | cons _ _ => simp at hl
        | cons n ns ih =>
          intro js hl h
          cases js with
          | nil => simp at hl
          | cons j js =>
            cases h with
            | cons h1 h2 => exact .cons h1 (ih (by simpa using hl) h2)
      exact this (by simp [hlen]) hs
    have hdec := hdec _ hval
    have hl' : l' = (fs.map (·.name)).zip (l'.map (·.2)) := by
      rw [← hk]
      clear hs hget hval hdec hp hk
      induction l' with
      | nil => rfl
      | cons a l ih => simp only [List.map_cons, List.zip_cons_cons, ← ih]
    generalize l'.map (·.2) = ys at hdec hl'
    subst hl'
    -- lookups
    have key : ∀ {fs : List Field} {ys : List JsJson} {vs : List Val}, (∀ c, Decodes (f c) (fs.map (·.ty)) ys vs) → (fs.map (·.name)).Nodup →
        List.Forall₂ (fun fl v => ∃ j, mapGet fl.name ((fs.map (·.name)).zip ys) = some j ∧ ∀ c, f c fl.ty j = .ok v) fs vs := by
      intro fs
      induction fs with
      | nil => intro ys vs h _; cases h []; exact .nil
      | cons fl fs ih =>
        intro ys vs h hn
        rw [List.map_cons, List.nodup_cons] at hn
        match ys, vs, h [] with
        | y :: ys, v :: vs, .cons _ _ =>
          have h1 : ∀ c, f c fl.ty y = .ok v := fun c => by cases h c; assumption
          have h2 : ∀ c, Decodes (f c) (fs.map (·.ty)) ys vs := fun c => by cases h c; assumption
          refine .cons ⟨y, by simp [mapGet], h1⟩ ?_
          have hne : ∀ x ∈ fs, fl.name ≠ x.name := fun x hx e => hn.1 (List.mem_map.mpr ⟨x, hx, e.symm⟩)
          have ih := ih h2 hn.2
          have gen : ∀ {xs : List Field} {ws : List Val} {m : List (String × JsJson)}, (∀ x ∈ xs, fl.name ≠ x.name) →
              List.Forall₂ (fun fl v => ∃ j, mapGet fl.name m = some j ∧ ∀ c, f c fl.ty j = .ok v) xs ws →
              List.Forall₂ (fun x v => ∃ j, mapGet x.name ((fl.name, y) :: m) = some j ∧ ∀ c, f c x.ty j = .ok v) xs ws := by
            intro xs ws m hx h
            induction h with
            | nil => exact .nil
            | cons h1 _ ih =>
              obtain ⟨j, e1, e2⟩ := h1
              refine .cons ⟨j, ?_, e2⟩ (ih fun x h => hx x (List.mem_cons_of_mem _ h))
              simpa [mapGet, hx _ List.mem_cons_self] using e1
          exact gen hne ih
    exact key hdec hn

theorem decodeInt_eq {lo hi i : Int} {name ctx j} (hr : f64ToInt lo hi (intToF64 i) = i) (hs : Same j (.num (intToF64 i))) :
    decodeInt lo hi name ctx j = .ok (.int i) := by
  cases hs
  simp only [decodeInt, hr]

mutual
theorem roundtrip {env : Env} (he : WfEnv env) (v : Val) : ∀ {t ctx n j}, v.size ≤ n → HasTy Survives env v t → WfTy env t →
    Same j (toJson env v t) → fromJson env n ctx t j = .ok v := by
  intro t ctx n j hn hv hw hs
  have hpos : 0 < n := Nat.lt_of_lt_of_le (by cases v <;> simp only [Val.size] <;> omega) hn
  obtain ⟨n, rfl⟩ : ∃ m, n = m + 1 := ⟨n - 1, by omega⟩
  match v with
  | .str s =>
    cases t <;> simp only [HasTy] at hv
    cases hs; rfl
  | .bool b =>
    cases t <;> simp only [HasTy] at hv
    cases b <;> cases hs <;> rfl
  | .unit =>
    cases t <;> simp only [HasTy] at hv
    cases hs with
    | obj hp hm => cases hm; cases hp.eq_nil; rfl
  | .int i =>
    simp only [HasTy] at hv
    obtain ⟨h1, h2⟩ := hv
    cases t <;> simp only [InRange] at h1
    all_goals simp only [fromJson]
    all_goals apply decodeInt_eq _ hs
    · exact cast_roundtrip (by omega) (representable_of_lt (by omega)) h1.1 h1.2
    · exact cast_roundtrip (by omega) (representable_of_lt (by omega)) h1.1 h1.2
    · exact (u64_roundtrip_iff h1.1 h1.2).mpr (by simpa using h2)
    · exact (i64_roundtrip_iff h1.1 h1.2).mpr (by simpa using h2)
  | .vec l =>
    cases t <;> simp only [HasTy] at hv
    rename_i t
    simp only [toJson] at hs
    cases hs with
    | list hs =>
      simp only [fromJson]
      rw [decodeVec_eq (roundtripAll he l (by simp only [Val.size] at hn; omega) hv hw hs)]
      rfl
  | .none =>
    cases t <;> simp only [HasTy] at hv
    cases hs; rfl
  | .some v =>
    cases t <;> simp only [HasTy] at hv
    rename_i t
    have hnn := toJson_ne_null (fun _ _ => survives_range) hw.1 v hv
    simp only [toJson] at hs
    have : j ≠ .null := by
      rintro rfl
      generalize toJson env v t = k at hs hnn
      cases hs; exact hnn rfl
    have ih := roundtrip he v (ctx := ctx) (n := n) (by simp only [Val.size] at hn; omega) hv hw.2 hs
    cases j
    case null => exact absurd rfl this
    all_goals
      simp only [fromJson]
      rw [ih]; rfl
  | .map l =>
    have hsz : sizeMap l ≤ n := by simp only [Val.size] at hn; omega
    cases t <;> simp only [HasTy] at hv
    all_goals
      rename_i t
      simp only [toJson] at hs
      cases hs with
      | @obj l0 l1 _ hp hm =>
        obtain ⟨l2, h2, hp2⟩ := List.perm_comp_forall₂ hp (roundtripEntries he l hsz hv.2 hw hm)
        simp only [fromJson, getHashmap, Res.bind]
        rw [decodeMap_eq h2, foldInsert_eq hv.1 hp2]
        rfl
  | .struct vs =>
    have hsz : sizeAll vs ≤ n := by simp only [Val.size] at hn; omega
    cases t <;> simp only [HasTy] at hv
    rename_i u
    obtain ⟨f, hf, ht⟩ := hv
    have hwf : WfFields env f := by have := he u; rw [hf] at this; exact this
    have tuple : ∀ js', SameList js' (toJsonTuple env vs f.types) → ∀ c, Decodes (fromJson env n c) f.types js' vs :=
      fun js' hjs c => roundtripTuple he vs hsz ht hwf.1 hjs
    have hlen := toJsonTuple_length ht
    simp only [toJson, hf] at hs
    simp only [fromJson, hf]
    match f, hf, ht with
    | .unit, _, ht =>
      cases vs with
      | nil => rfl
      | cons _ _ => simp only [Fields.types, HasTyTuple] at ht
    | .unnamed [], _, ht =>
      cases vs with
      | nil => rfl
      | cons _ _ => simp only [Fields.types, HasTyTuple] at ht
    | .unnamed [t], _, ht =>
      match vs with
      | [] => simp only [Fields.types, HasTyTuple] at ht
      | _ :: _ :: _ => simp only [Fields.types, HasTyTuple, and_false] at ht
      | [v] =>
        simp only [structJson, toJsonTuple, List.headD_cons] at hs tuple
        have := tuple [j] (.cons hs .nil) ctx
        cases this with
        | cons h1 _ => simp only [h1]; rfl
    | .unnamed (t1 :: t2 :: ts), _, ht =>
      simp only [structJson] at hs
      cases hs with
      | list hs =>
        have hd := tuple _ hs ctx
        have hl := decodes_length hd
        simp only [Fields.types] at hd hl
        simp only
        rw [if_neg (by omega), decodeTuple_eq hd]
        rfl
    | .named fs, _, ht =>
      simp only [structJson] at hs
      cases j with
      | obj l =>
        simp only
        rw [decodeNamed_eq (hwf.2 fs rfl)
          (named_lookup (hwf.2 fs rfl) (by simpa [Fields.types] using hlen) (by simpa [Fields.types] using tuple) hs)]
        rfl
      | _ => cases hs
  | .variant name vs =>
    have hsz : sizeAll vs ≤ n := by simp only [Val.size] at hn; omega
    cases t <;> simp only [HasTy] at hv
    rename_i u
    obtain ⟨variants, f, hf, hm, ht⟩ := hv
    have hwe := he u
    rw [hf] at hwe
    have hwf : WfFields env f := hwe.2 _ hm
    have tuple : ∀ js', SameList js' (toJsonTuple env vs f.types) → ∀ c, Decodes (fromJson env n c) f.types js' vs :=
      fun js' hjs c => roundtripTuple he vs hsz ht hwf.1 hjs
    have hlen := toJsonTuple_length ht
    simp only [toJson, hf, findVariant_mem hwe.1 hm] at hs
    simp only [fromJson, hf]
    match f, hm, ht with
    | .unit, hm, ht =>
      simp only [variantJson] at hs
      cases hs
      simp only
      rw [decodeSimple_eq hwe.1 hm]
      cases vs with
      | nil => rfl
      | cons _ _ => simp only [Fields.types, HasTyTuple] at ht
    | .unnamed [t], hm, ht =>
      match vs with
      | [] => simp only [Fields.types, HasTyTuple] at ht
      | _ :: _ :: _ => simp only [Fields.types, HasTyTuple, and_false] at ht
      | [v] =>
        simp only [variantJson, toJsonTuple, List.headD_cons] at hs tuple
        cases j with
        | obj l =>
          obtain ⟨v', rfl, hs'⟩ := same_single hs
          simp only
          rw [decodeCompound_eq (by simp) hwe.1 hm]
          have := tuple [v'] (.cons hs' .nil) ctx
          cases this with
          | cons h1 _ =>
            simp only [decodeContent, decodeCompound, mapGet, List.find?_cons, decide_true, Option.map_some, h1]
            rfl
        | _ => cases hs
    | .unnamed [], hm, ht =>
      simp only [variantJson] at hs
      cases j with
      | obj l =>
        obtain ⟨v', rfl, hs'⟩ := same_single hs
        cases hs' with
        | list hs' =>
          have hd := tuple _ hs' ctx
          have hl := decodes_length hd
          simp only [Fields.types] at hd hl
          simp only
          rw [decodeCompound_eq (by simp) hwe.1 hm]
          simp only [decodeContent, decodeCompound, mapGet, List.find?_cons, decide_true, Option.map_some]
          rw [if_neg (by omega), decodeTuple_eq hd]
          rfl
      | _ => cases hs
    | .unnamed (t1 :: t2 :: ts), hm, ht =>
      simp only [variantJson] at hs
      cases j with
      | obj l =>
        obtain ⟨v', rfl, hs'⟩ := same_single hs
        cases hs' with
        | list hs' =>
          have hd := tuple _ hs' ctx
          have hl := decodes_length hd
          simp only [Fields.types] at hd hl
          simp only
          rw [decodeCompound_eq (by simp) hwe.1 hm]
          simp only [decodeContent, decodeCompound, mapGet, List.find?_cons, decide_true, Option.map_some]
          rw [if_neg (by omega), decodeTuple_eq hd]
          rfl
      | _ => cases hs
    | .named fs, hm, ht =>
      simp only [variantJson] at hs
      cases j with
      | obj l =>
        obtain ⟨v', rfl, hs'⟩ := same_single hs
        simp only
        rw [decodeCompound_eq (by simp) hwe.1 hm]
        simp only [decodeContent, decodeCompound, mapGet, List.find?_cons, decide_true, Option.map_some]
        cases v' with
        | obj l' =>
          rw [decodeNamed_eq (hwf.2 fs rfl)
            (named_lookup (hwf.2 fs rfl) (by simpa [Fields.types] using hlen) (by simpa [Fields.types] using tuple) hs')]
          rfl
        | _ => cases hs'
      | _ => cases hs

theorem roundtripAll {env : Env} (he : WfEnv env) (l : List Val) : ∀ {t n js}, sizeAll l ≤ n → HasTyAll Survives env l t → WfTy env t →
    SameList js (toJsonAll env l t) → List.Forall₂ (fun a b => ∀ c, fromJson env n c t a = .ok b) js l := by
  intro t n js hn hv hw hs
  match l with
  | [] => simp only [toJsonAll] at hs; cases hs; exact .nil
  | v :: l =>
    simp only [toJsonAll] at hs
    simp only [HasTyAll] at hv
    simp only [sizeAll] at hn
    cases hs with
    | cons h1 h2 =>
      exact .cons (fun c => roundtrip he v (by omega) hv.1 hw h1) (roundtripAll he l (by omega) hv.2 hw h2)

theorem roundtripEntries {env : Env} (he : WfEnv env) (l : List (String × Val)) : ∀ {t n js}, sizeMap l ≤ n → HasTyMap Survives env l t → WfTy env t →
    SameMap js (toJsonMap env l t) → List.Forall₂ (fun a b => a.1 = b.1 ∧ ∀ c, fromJson env n c t a.2 = .ok b.2) js l := by
  intro t n js hn hv hw hs
  match l with
  | [] => simp only [toJsonMap] at hs; cases hs; exact .nil
  | (k, v) :: l =>
    simp only [toJsonMap] at hs
    simp only [HasTyMap] at hv
    simp only [sizeMap] at hn
    cases hs with
    | cons h1 h2 =>
      exact .cons ⟨rfl, fun c => roundtrip he v (by omega) hv.1 hw h1⟩ (roundtripEntries he l (by omega) hv.2 hw h2)

theorem roundtripTuple {env : Env} (he : WfEnv env) (vs : List Val) : ∀ {ts n c js}, sizeAll vs ≤ n → HasTyTuple Survives env vs ts → (∀ t ∈ ts, WfTy env t) →
    SameList js (toJsonTuple env vs ts) → Decodes (fromJson env n c) ts js vs := by
  intro ts n c js hn hv hw hs
  match vs with
  | [] =>
    match ts with
    | [] => simp only [toJsonTuple] at hs; cases hs; exact .nil
    | _ :: _ => simp only [HasTyTuple] at hv
  | v :: vs =>
    match ts with
    | [] => simp only [HasTyTuple] at hv
    | t :: ts =>
      simp only [toJsonTuple] at hs
      simp only [HasTyTuple] at hv
      simp only [sizeAll] at hn
      cases hs with
      | cons h1 h2 =>
        exact .cons (roundtrip he v (by omega) hv.1 (hw t (by simp)) h1)
          (roundtripTuple he vs (by omega) hv.2 (fun t ht => hw t (by simp [ht])) h2)
end

/-! ## Decoding never panics -/

theorem Res.bind_ne_panic {α β : Type} {r : Res α} {f : α → Res β} (h1 : r ≠ .panic) (h2 : ∀ a, f a ≠ .panic) : r.bind f ≠ .panic := by
  cases r <;> simp_all [Res.bind]

theorem Res.map_ne_panic {α β : Type} {r : Res α} {f : α → β} (h1 : r ≠ .panic) : r.map f ≠ .panic := by
  cases r <;> simp_all [Res.map]

theorem decodeVec_ne_panic {f : Ctx → JsJson → Res Val} (hf : ∀ c j, f c j ≠ .panic) {ctx} : ∀ {l i}, decodeVec f ctx i l ≠ .panic
  | [], _ => by simp [decodeVec]
  | _ :: _, _ => by
      simp only [decodeVec]
      exact Res.bind_ne_panic (hf _ _) fun _ => Res.bind_ne_panic (decodeVec_ne_panic hf) fun _ => by simp

theorem decodeMap_ne_panic {f : Ctx → JsJson → Res Val} (hf : ∀ c j, f c j ≠ .panic) {ctx} : ∀ {l acc}, decodeMap f ctx acc l ≠ .panic
  | [], _ => by simp [decodeMap]
  | (_, _) :: _, _ => by
      simp only [decodeMap]
      exact Res.bind_ne_panic (hf _ _) fun _ => decodeMap_ne_panic hf

theorem decodeTuple_ne_panic {f : Ty → JsJson → Res Val} (hf : ∀ t j, f t j ≠ .panic) : ∀ {ts js}, js.length = ts.length → decodeTuple f ts js ≠ .panic
  | [], _, _ => by simp [decodeTuple]
  | t :: ts, js, h => by
      simp only [decodeTuple]
      split
      · rename_i he
        rw [List.getLast?_eq_none_iff] at he; subst he; simp at h
      · exact Res.bind_ne_panic (hf _ _) fun _ => Res.bind_ne_panic (decodeTuple_ne_panic hf (by simp [h])) fun _ => by simp

theorem getProperty_ne_panic {f : Ctx → JsJson → Res Val} (hf : ∀ c j, f c j ≠ .panic) {ctx p j} : (getProperty f ctx p j).2 ≠ .panic := by
  unfold getProperty
  split
  · simp only
    split
    · simp
    · exact hf _ _
  · simp

theorem decodeNamed_ne_panic {f : Ctx → Ty → JsJson → Res Val} (hf : ∀ c t j, f c t j ≠ .panic) {ctx d} : ∀ {fs j}, decodeNamed f ctx d fs j ≠ .panic
  | [], _ => by simp [decodeNamed]
  | fl :: fs, j => by
      simp only [decodeNamed]
      refine Res.bind_ne_panic ?_ fun _ => Res.bind_ne_panic (decodeNamed_ne_panic hf) fun _ => by simp
      have := getProperty_ne_panic (f := fun c j => f c fl.ty j) (fun c j => hf c fl.ty j) (ctx := ctx) (p := fl.name) (j := j)
      unfold orDefault
      split
      · simp
      · exact this

theorem decodeSimple_ne_panic {ctx s} : ∀ {l}, decodeSimple ctx s l ≠ .panic
  | [] => by simp [decodeSimple]
  | (_, .unit) :: l => by
      simp only [decodeSimple]
      split
      · simp
      · exact decodeSimple_ne_panic
  | (_, .unnamed _) :: l => by simp only [decodeSimple]; exact decodeSimple_ne_panic
  | (_, .named _) :: l => by simp only [decodeSimple]; exact decodeSimple_ne_panic

theorem decodeCompound_ne_panic {f : Ctx → Ty → JsJson → Res Val} (hf : ∀ c t j, f c t j ≠ .panic) {ctx m} : ∀ {l}, decodeCompound f ctx m l ≠ .panic
  | [] => by simp [decodeCompound]
  | (_, .unit) :: l => by simp only [decodeCompound]; exact decodeCompound_ne_panic hf
  | (_, .unnamed ts) :: l => by
      simp only [decodeCompound]
      split
      · exact decodeCompound_ne_panic hf
      · split
        · exact Res.map_ne_panic (hf _ _ _)
        · split
          · split
            · simp
            · exact Res.map_ne_panic (decodeTuple_ne_panic (hf _) (by simp; omega))
          · simp
  | (_, .named fs) :: l => by
      simp only [decodeCompound]
      split
      · exact decodeCompound_ne_panic hf
      · exact Res.map_ne_panic (decodeNamed_ne_panic hf)

theorem fromJson_ne_panic {env : Env} : ∀ n ctx t j, fromJson env n ctx t j ≠ .panic
  | 0, _, _, _ => by simp [fromJson]
  | n + 1, ctx, t, j => by
      have ih := fromJson_ne_panic (env := env) n
      have hint : ∀ lo hi name, decodeInt lo hi name ctx j ≠ .panic := by
        intro lo hi name; unfold decodeInt; split <;> simp
      have hmap : getHashmap ctx j ≠ .panic := by unfold getHashmap; split <;> simp
      cases t with
      | u32 | i32 | u64 | i64 => exact hint _ _ _
      | string | bool => simp only [fromJson]; split <;> simp
      | unit =>
        simp only [fromJson]
        exact Res.bind_ne_panic hmap fun _ => by split <;> simp
      | vec t =>
        simp only [fromJson]
        split
        · exact Res.map_ne_panic (decodeVec_ne_panic fun c j => ih c t j)
        · simp
      | option t =>
        simp only [fromJson]
        split
        · simp
        · exact Res.map_ne_panic (ih _ _ _)
      | hashMap t | btreeMap t =>
        simp only [fromJson]
        exact Res.bind_ne_panic hmap fun _ => Res.map_ne_panic (decodeMap_ne_panic fun c j => ih c t j)
      | user u =>
        simp only [fromJson]
        split
        · simp
        · simp
        · exact Res.map_ne_panic (ih _ _ _)
        · split
          · split
            · simp
            · exact Res.map_ne_panic (decodeTuple_ne_panic (ih _) (by simp; omega))
          · simp
        · exact Res.map_ne_panic (decodeNamed_ne_panic ih)
        · split
          · exact decodeSimple_ne_panic
          · exact decodeCompound_ne_panic ih
          · simp

/-! ## C18 -/

/-- No user types. -/
def noTypes : Env := fun _ => .struct .unit

theorem wf_noTypes : WfEnv noTypes := fun _ => ⟨by simp [Fields.types], fun _ h => by cases h⟩

/-- **C18.** Every value of a type built from the library's types is read back, from its JSON
in whatever order the maps are listed. (`n` only bounds the depth of the calls.) -/
theorem C18_typed_roundtrip {v : Val} {t : Ty} {ctx n j} (hv : HasTy Survives noTypes v t) (hw : WfTy noTypes t)
    (hj : Same j (toJson noTypes v t)) (hn : v.size ≤ n) : fromJson noTypes n ctx t j = .ok v :=
  roundtrip wf_noTypes v hn hv hw hj

/-- **C18.** 32 bit integers always survive; 64 bit integers exactly if they are floats, or the
largest value of the type. -/
theorem C18_integers {env : Env} {ctx n i} :
    (InRange .u32 i → fromJson env (n + 1) ctx .u32 (toJson env (.int i) .u32) = .ok (.int i)) ∧
    (InRange .i32 i → fromJson env (n + 1) ctx .i32 (toJson env (.int i) .i32) = .ok (.int i)) ∧
    (InRange .u64 i → (fromJson env (n + 1) ctx .u64 (toJson env (.int i) .u64) = .ok (.int i) ↔ Representable i ∨ i = 2 ^ 64 - 1)) ∧
    (InRange .i64 i → (fromJson env (n + 1) ctx .i64 (toJson env (.int i) .i64) = .ok (.int i) ↔ Representable i ∨ i = 2 ^ 63 - 1)) := by
  simp only [fromJson, toJson, decodeInt, InRange, Res.ok.injEq, Val.int.injEq]
  refine ⟨fun h => ?_, fun h => ?_, fun h => u64_roundtrip_iff h.1 h.2, fun h => i64_roundtrip_iff h.1 h.2⟩
  · exact cast_roundtrip (by omega) (representable_of_lt (by omega)) h.1 h.2
  · exact cast_roundtrip (by omega) (representable_of_lt (by omega)) h.1 h.2

/-- **C18, C19.** No JSON makes the conversion panic. -/
theorem C18_no_panic {env : Env} {ctx n t j} : fromJson env n ctx t j ≠ .panic := fromJson_ne_panic _ _ _ _

/-- **C18, limit.** In a type of nested options `Some(None)` is read back as `None`. -/
theorem C18_nested_option_violated :
    HasTy Survives noTypes (.some .none) (.option (.option .bool)) ∧
    ∀ n ctx, fromJson noTypes (n + 1) ctx (.option (.option .bool)) (toJson noTypes (.some .none) (.option (.option .bool))) = .ok .none :=
  ⟨by simp only [HasTy], fun _ _ => rfl⟩

/-- A number that does not survive. -/
theorem C18_u64_violated : InRange .u64 (2 ^ 53 + 1) ∧
    ∀ n ctx, fromJson noTypes (n + 1) ctx .u64 (toJson noTypes (.int (2 ^ 53 + 1)) .u64) = .ok (.int (2 ^ 53)) := by
  refine ⟨by simp [InRange], fun n ctx => ?_⟩
  simp only [fromJson, toJson, decodeInt]
  rw [show f64ToInt 0 (2 ^ 64 - 1) (intToF64 (2 ^ 53 + 1)) = 2 ^ 53 by decide +kernel]

/-- A non-trivial case of the round trip: an option of a map of lists of numbers. -/
example : HasTy Survives noTypes (.some (.map [("a", .vec [.int 1, .int (2 ^ 64 - 1)]), ("b", .vec [])])) (.option (.hashMap (.vec .u64))) ∧
    WfTy noTypes (.option (.hashMap (.vec .u64))) := by
  refine ⟨?_, .hashMap _, trivial⟩
  simp only [HasTy, HasTyMap, HasTyAll, and_true, Survives, InRange]
  refine ⟨?_, ⟨⟨by decide, .inl ⟨1, 0, by decide, by decide⟩⟩, ⟨by decide, .inr (.inl (by decide))⟩⟩⟩
  unfold Sorted
  exact List.pairwise_cons.mpr ⟨fun a ha => by simp at ha; subst ha; decide, by simp⟩

/-! ## C19 -/

/-- **C19.** Every value of a derived type (struct, newtype, tuple struct, enum; also recursive
ones) is read back. -/
theorem C19_derive_roundtrip {env : Env} (he : WfEnv env) {v : Val} {u : Nat} {ctx n j} (hv : HasTy Survives env v (.user u))
    (hj : Same j (toJson env v (.user u))) (hn : v.size ≤ n) : fromJson env n ctx (.user u) j = .ok v :=
  roundtrip he v hn hv trivial hj

/-- **C19.** Values of different variants never have the same representation. -/
theorem C19_variants_distinct {env : Env} {u : Nat} {a b : String} {vs ws : List Val} {j : JsJson} (hab : a ≠ b)
    (ha : HasTy InRange env (.variant a vs) (.user u)) (hb : HasTy InRange env (.variant b ws) (.user u))
    (h1 : Same j (toJson env (.variant a vs) (.user u))) : ¬ Same j (toJson env (.variant b ws) (.user u)) := by
  intro h2
  simp only [HasTy] at ha hb
  obtain ⟨l, f, hl, hf, _⟩ := ha
  obtain ⟨l', g, hl', hg, _⟩ := hb
  rw [hl] at hl'; cases hl'
  have find : ∀ {name f}, (name, f) ∈ l → ∃ g, findVariant name l = some g := by
    intro name f hm
    have : (l.find? (·.1 = name)).isSome := by
      rw [List.find?_isSome]; exact ⟨_, hm, by simp⟩
    obtain ⟨g, hg⟩ := Option.isSome_iff_exists.mp this
    exact ⟨g.2, by simp [findVariant, hg]⟩
  obtain ⟨f', e1⟩ := find hf
  obtain ⟨g', e2⟩ := find hg
  simp only [toJson, hl, e1, e2] at h1 h2
  have shape : ∀ name (f : Fields) js, variantJson name f js = .str name ∨ ∃ x, variantJson name f js = .obj [(name, x)] := by
    intro name f js
    match f with
    | .unit => exact .inl rfl
    | .unnamed [] => exact .inr ⟨_, rfl⟩
    | .unnamed [_] => exact .inr ⟨_, rfl⟩
    | .unnamed (_ :: _ :: _) => exact .inr ⟨_, rfl⟩
    | .named _ => exact .inr ⟨_, rfl⟩
  rcases shape a f' (toJsonTuple env vs f'.types) with h | ⟨x, h⟩ <;> rcases shape b g' (toJsonTuple env ws g'.types) with h' | ⟨y, h'⟩ <;>
    rw [h] at h1 <;> rw [h'] at h2
  · cases h1; cases h2; exact hab rfl
  · cases h1; cases h2
  · cases h2; cases h1
  · cases j with
    | obj l =>
      obtain ⟨_, e, _⟩ := same_single h1
      obtain ⟨_, e', _⟩ := same_single h2
      rw [e] at e'; cases e'; exact hab rfl
    | _ => cases h1

theorem forall₂_lookup {f : Ctx → Ty → JsJson → Res Val} {fs : List Field} {vs : List Val} {l l' : List (String × JsJson)}
    (hsame : ∀ x ∈ fs, mapGet x.name l = mapGet x.name l')
    (h : List.Forall₂ (fun fl v => (∃ c j, mapGet fl.name l = some j ∧ f c fl.ty j = .ok v) ∨ fl.default = some v) fs vs) :
    List.Forall₂ (fun fl v => (∃ c j, mapGet fl.name l' = some j ∧ f c fl.ty j = .ok v) ∨ fl.default = some v) fs vs := by
  induction h with
  | nil => exact .nil
  | cons h1 _ ih =>
    refine .cons ?_ (ih fun x hx => hsame x (List.mem_cons_of_mem _ hx))
    rwa [← hsame _ List.mem_cons_self]

theorem decodeNamed_ok {f : Ctx → Ty → JsJson → Res Val} {ctx : Ctx} : ∀ {fs : List Field} {l : List (String × JsJson)} {vs : List Val},
    (fs.map (·.name)).Nodup → decodeNamed f ctx true fs (.obj l) = .ok vs →
    List.Forall₂ (fun fl v => (∃ c j, mapGet fl.name l = some j ∧ f c fl.ty j = .ok v) ∨ fl.default = some v) fs vs
  | [], l, vs, _, h => by simp only [decodeNamed, Res.ok.injEq] at h; subst h; exact .nil
  | fl :: fs, l, vs, hn, h => by
      rw [List.map_cons, List.nodup_cons] at hn
      have hne : ∀ x ∈ fs, x.name ≠ fl.name := fun x hx e => hn.1 (List.mem_map.mpr ⟨x, hx, e⟩)
      have bind_ok : ∀ {α β : Type} {r : Res α} {k : α → Res β} {b}, r.bind k = .ok b → ∃ a, r = .ok a ∧ k a = .ok b := by
        intro α β r k b h; cases r <;> simp_all [Res.bind]
      simp only [decodeNamed, if_true] at h
      obtain ⟨v, h1, h⟩ := bind_ok h
      obtain ⟨ws, h2, h3⟩ := bind_ok h
      cases h3
      have hstep : ∃ l', (getProperty (fun c j => f c fl.ty j) ctx fl.name (.obj l)).1 = .obj l' ∧ ∀ x ∈ fs, mapGet x.name l' = mapGet x.name l := by
        simp only [getProperty]
        split
        · exact ⟨l, rfl, fun _ _ => rfl⟩
        · exact ⟨_, rfl, fun x hx => mapGet_filter (hne x hx)⟩
      obtain ⟨l', e1, e2⟩ := hstep
      rw [e1] at h2
      refine .cons ?_ (forall₂_lookup e2 (decodeNamed_ok hn.2 h2))
      simp only [getProperty] at h1
      split at h1
      · simp only [orDefault] at h1
        split at h1
        · rename_i d _ hd _
          cases h1; exact .inr hd
        · cases h1
      · rename_i j hj
        simp only [orDefault] at h1
        split at h1
        · rename_i d _ hd _
          cases h1; exact .inr hd
        · exact .inl ⟨_, _, hj, h1⟩

/-- **C19.** A struct with a field that has no default is only accepted from an object, and each field is the conversion of the
property with its name, or the default of the field, if it has one. In particular an object
without a property for a field without a default is rejected. -/
theorem C19_fields_by_name {env : Env} (he : WfEnv env) {u n ctx j v fs} (hu : env u = .struct (.named fs))
    (hdef : ∃ fl ∈ fs, fl.default = none)
    (h : fromJson env (n + 1) ctx (.user u) j = .ok v) :
    ∃ l vs, j = .obj l ∧ v = .struct vs ∧
      List.Forall₂ (fun fl v => (∃ c x, mapGet fl.name l = some x ∧ fromJson env n c fl.ty x = .ok v) ∨ fl.default = some v) fs vs := by
  have hw := he u
  rw [hu] at hw
  have hn := hw.2 fs rfl
  simp only [fromJson, hu] at h
  have map_ok : ∀ {α β : Type} {r : Res α} {k : α → β} {b}, r.map k = .ok b → ∃ a, r = .ok a ∧ k a = b := by
    intro α β r k b h; cases r <;> simp_all [Res.map]
  obtain ⟨vs, h1, h2⟩ := map_ok h
  cases j with
  | obj l => exact ⟨l, vs, rfl, h2.symm, decodeNamed_ok hn h1⟩
  | _ =>
    exfalso
    clear h h2 hn hw hu
    obtain ⟨fl, hm, hd⟩ := hdef
    induction fs generalizing vs with
    | nil => cases hm
    | cons g fs ih =>
      simp only [decodeNamed, getProperty, if_true] at h1
      rcases List.mem_cons.mp hm with rfl | hm
      · simp [orDefault, hd, Res.bind] at h1
      · cases hg : g.default with
        | none => simp [orDefault, hg, Res.bind] at h1
        | some d =>
          simp only [orDefault, hg, Res.bind] at h1
          split at h1
          · rename_i ws hws; exact ih ws hws hm
          all_goals cases h1

/-- A recursive type: `struct Tree { name: String, kids: Vec<Tree>, kind: Option<Kind> }`,
`enum Kind { Leaf, Count(u32), Pair(String, bool), Point { x: i32, y: i32 } }`, `struct Id(u64)`. -/
def exampleEnv : Env
  | 0 => .struct (.named [{ name := "name", ty := .string }, { name := "kids", ty := .vec (.user 0) },
      { name := "kind", ty := .option (.user 1), default := some .none }, { name := "id", ty := .user 2 }])
  | 1 => .enum [("Leaf", .unit), ("Count", .unnamed [.u32]), ("Pair", .unnamed [.string, .bool]),
      ("Point", .named [{ name := "x", ty := .i32 }, { name := "y", ty := .i32 }])]
  | _ => .struct (.unnamed [.u64])

theorem wf_exampleEnv : WfEnv exampleEnv := by
  intro n
  match n with
  | 0 =>
    refine ⟨fun t ht => ?_, fun fs h => by cases h; decide⟩
    simp [Fields.types] at ht
    rcases ht with rfl | rfl | rfl | rfl
    · trivial
    · trivial
    · exact ⟨.user 1 (by intro t h; simp [exampleEnv] at h), trivial⟩
    · trivial
  | 1 =>
    refine ⟨by decide, fun e he => ?_⟩
    simp at he
    rcases he with rfl | rfl | rfl | rfl
    · exact ⟨by simp [Fields.types], fun _ h => by cases h⟩
    · exact ⟨by simp [Fields.types, WfTy], fun _ h => by cases h⟩
    · exact ⟨by simp [Fields.types, WfTy], fun _ h => by cases h⟩
    · exact ⟨by simp [Fields.types, WfTy], fun _ h => by cases h; decide⟩
  | n + 2 => exact ⟨by simp [Fields.types, WfTy], fun _ h => by cases h⟩

example : HasTy Survives exampleEnv
    (.struct [.str "root", .vec [.struct [.str "kid", .vec [], .some (.variant "Pair" [.str "p", .bool true]), .struct [.int 5]]],
      .some (.variant "Point" [.int (-3), .int 7]), .struct [.int (2 ^ 60)]]) (.user 0) := by
  have r : ∀ t (i : Int), InRange t i → i.natAbs < 2 ^ 53 → Survives t i := fun t i h1 h2 => ⟨h1, .inl (representable_of_lt h2)⟩
  have tree : exampleEnv 0 = .struct (.named [{ name := "name", ty := .string }, { name := "kids", ty := .vec (.user 0) },
      { name := "kind", ty := .option (.user 1), default := some .none }, { name := "id", ty := .user 2 }]) := rfl
  simp only [HasTy]
  refine ⟨_, rfl, ?_⟩
  simp only [Fields.types, List.map, HasTyTuple, HasTy, HasTyAll, and_true, true_and]
  refine ⟨⟨_, tree, ?_⟩, ⟨_, _, rfl, List.mem_cons_of_mem _ (List.mem_cons_of_mem _ (List.mem_cons_of_mem _ List.mem_cons_self)), ?_⟩, ⟨_, rfl, ?_⟩⟩
  · simp only [Fields.types, List.map, HasTyTuple, HasTy, HasTyAll, and_true, true_and]
    refine ⟨⟨_, _, rfl, List.mem_cons_of_mem _ (List.mem_cons_of_mem _ List.mem_cons_self), ?_⟩, ⟨_, rfl, ?_⟩⟩
    · simp only [HasTyTuple, HasTy, and_true]
    · simp only [HasTyTuple, HasTy, and_true]
      exact r _ _ (by simp [InRange]) (by decide)
  · simp only [List.map, HasTyTuple, HasTy, and_true]
    exact ⟨r _ _ (by simp [InRange]) (by decide), r _ _ (by simp [InRange]) (by decide)⟩
  · simp only [HasTyTuple, HasTy, and_true]
    exact ⟨by simp [InRange], .inl ⟨1, 60, by decide, by decide⟩⟩

end Verif.Json
