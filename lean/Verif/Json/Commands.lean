import Verif.Json.TypedProps
import Verif.Dom.Command
/-!
# C28: the server accepts every command the client emits

Sources: `crates/vertigo/src/driver_module/dom_command.rs` (client),
`crates/vertigo-cli/src/serve/html/dom_command.rs` (server).
-/
namespace Verif.Json

open Verif.Codec (JsJson)
open Verif.Dom (Cmd Id)

/-- `u64::to_json`. -/
def u64Json (n : Nat) : JsJson := .num (intToF64 n)

/-- js_json_struct.rs:306-322: an object from its entries. -/
def object (l : List (String × JsJson)) : JsJson := .obj l

/-- `Option<u64>::to_json`. -/
def refJson : Option Nat → JsJson
  | some r => u64Json r
  | none => .null

/-- dom_command.rs:71-154. -/
def cmdJson : Cmd → JsJson
  | .createNode id name => object [("type", .str "create_node"), ("id", u64Json id), ("name", .str name)]
  | .createText id value => object [("type", .str "create_text"), ("id", u64Json id), ("value", .str value)]
  | .updateText id value => object [("type", .str "update_text"), ("id", u64Json id), ("value", .str value)]
  | .setAttr id name value => object [("type", .str "set_attr"), ("id", u64Json id), ("name", .str name), ("value", .str value)]
  | .removeAttr id name => object [("type", .str "remove_attr"), ("id", u64Json id), ("name", .str name)]
  | .removeNode id => object [("type", .str "remove_node"), ("id", u64Json id)]
  | .removeText id => object [("type", .str "remove_text"), ("id", u64Json id)]
  | .createComment id value => object [("type", .str "create_comment"), ("id", u64Json id), ("value", .str value)]
  | .removeComment id => object [("type", .str "remove_comment"), ("id", u64Json id)]
  | .insertBefore parent child ref =>
      object [("type", .str "insert_before"), ("parent", u64Json parent), ("child", u64Json child),
        ("ref_id", refJson ref)]
  | .insertCss selector value => object [("type", .str "insert_css"), ("selector", .str selector), ("value", .str value)]
  | .callbackAdd id event cb =>
      object [("type", .str "callback_add"), ("id", u64Json id), ("event_name", .str event), ("callback_id", u64Json cb)]
  | .callbackRemove id event cb =>
      object [("type", .str "callback_remove"), ("id", u64Json id), ("event_name", .str event), ("callback_id", u64Json cb)]

/-- dom.rs:94-109 (`flush_dom_changes_inner`): the argument of `dom_bulk_update`. -/
def batchJson (cs : List Cmd) : JsJson := .list (cs.map cmdJson)

/-- `String::from_json`. -/
def readString (ctx : Ctx) (j : JsJson) : Res String :=
  match fromJson noTypes 1 ctx .string j with
  | .ok (.str s) => .ok s
  | .ok _ => .panic
  | .err c => .err c
  | .panic => .panic
  | .fuel => .fuel

/-- `u64::from_json`. -/
def readU64 (ctx : Ctx) (j : JsJson) : Res Nat :=
  match fromJson noTypes 1 ctx .u64 j with
  | .ok (.int i) => .ok i.toNat
  | .ok _ => .panic
  | .err c => .err c
  | .panic => .panic
  | .fuel => .fuel

/-- `Option<u64>::from_json`. -/
def readOptionU64 (ctx : Ctx) (j : JsJson) : Res (Option Nat) :=
  match fromJson noTypes 2 ctx (.option .u64) j with
  | .ok .none => .ok none
  | .ok (.some (.int i)) => .ok (some i.toNat)
  | .ok _ => .panic
  | .err c => .err c
  | .panic => .panic
  | .fuel => .fuel

/-- One `get_property`, and the rest of the code with the shrunk object. -/
def prop {α β : Type} (ctx : Ctx) (name : String) (f : Ctx → JsJson → Res α) (json : JsJson) (k : JsJson → α → Res β) : Res β :=
  let (json, r) := getProperty f ctx name json
  r.bind (k json)

/-- Server: dom_command.rs:49-109. `panic` is `unreachable!()`. -/
def cmdFromJson (ctx : Ctx) (json : JsJson) : Res Cmd :=
  prop ctx "type" readString json fun json type_param =>
    if type_param = "create_node" then
      prop ctx "id" readU64 json fun json id => prop ctx "name" readString json fun _ name => .ok (.createNode id name)
    else if type_param = "create_text" then
      prop ctx "id" readU64 json fun json id => prop ctx "value" readString json fun _ value => .ok (.createText id value)
    else if type_param = "update_text" then
      prop ctx "id" readU64 json fun json id => prop ctx "value" readString json fun _ value => .ok (.updateText id value)
    else if type_param = "set_attr" then
      prop ctx "id" readU64 json fun json id => prop ctx "name" readString json fun json name =>
        prop ctx "value" readString json fun _ value => .ok (.setAttr id name value)
    else if type_param = "remove_node" then prop ctx "id" readU64 json fun _ id => .ok (.removeNode id)
    else if type_param = "remove_text" then prop ctx "id" readU64 json fun _ id => .ok (.removeText id)
    else if type_param = "insert_before" then
      prop ctx "parent" readU64 json fun json parent => prop ctx "child" readU64 json fun json child =>
        prop ctx "ref_id" readOptionU64 json fun _ ref => .ok (.insertBefore parent child ref)
    else if type_param = "insert_css" then
      prop ctx "selector" readString json fun json selector => prop ctx "value" readString json fun _ value =>
        .ok (.insertCss selector value)
    else if type_param = "create_comment" then
      prop ctx "id" readU64 json fun json id => prop ctx "value" readString json fun _ value => .ok (.createComment id value)
    else if type_param = "remove_comment" then prop ctx "id" readU64 json fun _ id => .ok (.removeComment id)
    else if type_param = "callback_add" then
      prop ctx "id" readU64 json fun json id => prop ctx "event_name" readString json fun json event =>
        prop ctx "callback_id" readU64 json fun _ cb => .ok (.callbackAdd id event cb)
    else if type_param = "callback_remove" then
      prop ctx "id" readU64 json fun json id => prop ctx "event_name" readString json fun json event =>
        prop ctx "callback_id" readU64 json fun _ cb => .ok (.callbackRemove id event cb)
    else .panic

/-- `Vec<DomCommand>::from_json` (serialize.rs:212-225). -/
def batchLoop (ctx : Ctx) : Nat → List JsJson → Res (List Cmd)
  | _, [] => .ok []
  | i, j :: l => (cmdFromJson (toString i :: ctx) j).bind fun c => (batchLoop ctx (i + 1) l).bind fun cs => .ok (c :: cs)

def batchFromJson (ctx : Ctx) : JsJson → Res (List Cmd)
  | .list l => batchLoop ctx 0 l
  | other => .err (("List expected, received " ++ typename other) :: ctx)

/-! ## Specification -/

/-- The numbers in a command are ids of nodes and callbacks, counted from 1; they are far below
2^53. -/
def IdsSmall : Cmd → Prop
  | .createNode id _ | .createText id _ | .updateText id _ | .setAttr id _ _ | .removeAttr id _ | .removeNode id
  | .removeText id | .createComment id _ | .removeComment id => id < 2 ^ 53
  | .insertBefore p c r => p < 2 ^ 53 ∧ c < 2 ^ 53 ∧ ∀ x, r = some x → x < 2 ^ 53
  | .insertCss _ _ => True
  | .callbackAdd id _ cb | .callbackRemove id _ cb => id < 2 ^ 53 ∧ cb < 2 ^ 53

def IsRemoveAttr : Cmd → Prop
  | .removeAttr _ _ => True
  | _ => False

/-! ## Proofs -/

/-- Neither a list nor an object. -/
def Scalar : JsJson → Prop
  | .list _ | .obj _ => False
  | _ => True

theorem same_scalar {a b : JsJson} (h : Same a b) (hb : Scalar b) : a = b := by
  cases h <;> simp_all [Scalar]

theorem scalar_get {l m : List (String × JsJson)} (h : Same (.obj l) (.obj m)) (hn : (m.map (·.1)).Nodup)
    (hs : ∀ e ∈ m, Scalar e.2) (k : String) : mapGet k l = mapGet k m := by
  cases h with
  | @obj _ l' _ hp hm =>
    rw [mapGet_perm hp (by rw [sameMap_keys hm]; exact hn)]
    rcases sameMap_get hm k with ⟨h1, h2⟩ | ⟨a, b, h1, h2, h3⟩
    · rw [h1, h2]
    · rw [h1, h2]
      have : Scalar b := by
        simp only [mapGet, Option.map_eq_some_iff] at h2
        obtain ⟨e, he, rfl⟩ := h2
        exact hs e (List.mem_of_find?_eq_some he)
      rw [same_scalar h3 this]

theorem readString_str (ctx : Ctx) (s : String) : readString ctx (.str s) = .ok s := rfl

theorem readU64_json (ctx : Ctx) {n : Nat} (h : n < 2 ^ 53) : readU64 ctx (u64Json n) = .ok n := by
  have := (u64_roundtrip_iff (i := n) (by omega) (by omega)).mpr (.inl (representable_of_lt (by omega)))
  simp only [readU64, fromJson, u64Json, decodeInt, this, Int.toNat_natCast]

theorem readOptionU64_some (ctx : Ctx) {n : Nat} (h : n < 2 ^ 53) : readOptionU64 ctx (u64Json n) = .ok (some n) := by
  have := (u64_roundtrip_iff (i := n) (by omega) (by omega)).mpr (.inl (representable_of_lt (by omega)))
  simp only [readOptionU64, fromJson, u64Json, decodeInt, this, Res.map, Int.toNat_natCast]

theorem readOptionU64_none (ctx : Ctx) : readOptionU64 ctx .null = .ok none := rfl

/-- The object without an entry. -/
def without (k : String) (l : List (String × JsJson)) : List (String × JsJson) := l.filter (·.1 ≠ k)

theorem mapGet_without {l : List (String × JsJson)} {k k' : String} (h : k ≠ k') : mapGet k (without k' l) = mapGet k l :=
  mapGet_filter h

theorem prop_obj {α β : Type} {ctx : Ctx} {name : String} {f : Ctx → JsJson → Res α} {l : List (String × JsJson)}
    {k : JsJson → α → Res β} :
    prop ctx name f (.obj l) k = match mapGet name l with
      | some j => (f (("field: '" ++ name ++ "'") :: ctx) j).bind (k (.obj (without name l)))
      | none => .err ("missing field" :: ("field: '" ++ name ++ "'") :: ctx) := by
  cases h : mapGet name l <;> simp only [prop, getProperty, h] <;> rfl

theorem readOptionU64_json (ctx : Ctx) {r : Option Nat} (h : ∀ x, r = some x → x < 2 ^ 53) :
    readOptionU64 ctx (refJson r) = .ok r := by
  cases r with
  | none => rfl
  | some n => exact readOptionU64_some ctx (h n rfl)

theorem same_obj {j : JsJson} {m : List (String × JsJson)} (h : Same j (.obj m)) : ∃ l, j = .obj l := by
  cases h; exact ⟨_, rfl⟩

theorem scalar_ref (r : Option Nat) : Scalar (refJson r) := by cases r <;> trivial

/-- Every entry of an object written by the client is a scalar. -/
def AllScalar (m : List (String × JsJson)) : Prop := ∀ e ∈ m, Scalar e.2

theorem mapGet_cons {α : Type} (k k' : String) (v : α) (l : List (String × α)) :
    mapGet k ((k', v) :: l) = if k' = k then some v else mapGet k l := by
  by_cases h : k' = k <;> simp [mapGet, h]

/-- **C28.** Every command with the exception of `RemoveAttr` is parsed by the server to the
same command. -/
theorem C28_command_accepted_partial {c : Cmd} {j : JsJson} {ctx : Ctx} (hr : ¬ IsRemoveAttr c) (hid : IdsSmall c)
    (hj : Same j (cmdJson c)) : cmdFromJson ctx j = .ok c := by
  obtain ⟨m, hm⟩ : ∃ m, cmdJson c = .obj m := by cases c <;> exact ⟨_, rfl⟩
  rw [hm] at hj
  obtain ⟨l, rfl⟩ := same_obj hj
  have hget := scalar_get hj (by
      cases c <;> simp only [cmdJson, object, JsJson.obj.injEq] at hm <;> subst hm <;> simp) (by
      cases c <;> simp only [cmdJson, object, JsJson.obj.injEq] at hm <;> subst hm <;>
        simp only [List.mem_cons, List.not_mem_nil, or_false, forall_eq_or_imp, forall_eq, scalar_ref, and_true] <;>
        simp only [and_true, u64Json, Scalar])
  cases c <;> simp only [IsRemoveAttr, not_true] at hr <;>
    simp only [cmdJson, object, JsJson.obj.injEq] at hm <;> subst hm <;>
    simp only [IdsSmall] at hid <;>
    simp [cmdFromJson, prop_obj, mapGet_without, hget, mapGet_cons, readString_str, Res.bind, readU64_json,
      hid]
  rw [readOptionU64_json _ hid.2.2]

/-- **C28.** A whole batch, as sent by `flush_dom_changes`, is parsed to the same commands in
the same order. -/
theorem C28_batch_accepted_partial {cs : List Cmd} {j : JsJson} {ctx : Ctx} (hr : ∀ c ∈ cs, ¬ IsRemoveAttr c)
    (hid : ∀ c ∈ cs, IdsSmall c) (hj : Same j (batchJson cs)) : batchFromJson ctx j = .ok cs := by
  have key : ∀ {cs : List Cmd} {js : List JsJson} {i : Nat}, (∀ c ∈ cs, ¬ IsRemoveAttr c) → (∀ c ∈ cs, IdsSmall c) →
      SameList js (cs.map cmdJson) → batchLoop ctx i js = .ok cs := by
    intro cs
    induction cs with
    | nil => intro js i _ _ h; cases h; rfl
    | cons c cs ih =>
      intro js i hr hid h
      cases h with
      | cons h1 h2 =>
        simp only [batchLoop, C28_command_accepted_partial (hr c List.mem_cons_self) (hid c List.mem_cons_self) h1,
          Res.bind, ih (fun x hx => hr x (List.mem_cons_of_mem _ hx)) (fun x hx => hid x (List.mem_cons_of_mem _ hx)) h2]
  cases hj with
  | list h => exact key hr hid h

/-- **C28**, refuted for `RemoveAttr`: whatever the node and the attribute, the server reaches
`unreachable!()` on the command that removes an attribute. -/
theorem C28_remove_attr_violated {id : Id} {name : String} {j : JsJson} {ctx : Ctx}
    (hj : Same j (cmdJson (.removeAttr id name))) : cmdFromJson ctx j = .panic := by
  simp only [cmdJson, object] at hj
  obtain ⟨l, rfl⟩ := same_obj hj
  have hget := scalar_get hj (by simp) (by simp [Scalar, u64Json])
  simp [cmdFromJson, prop_obj, hget, mapGet_cons, readString_str, Res.bind]

/-- **C28**, exactly: a batch is accepted if, and only if, it removes no attribute. -/
theorem C28_accepted_iff {cs : List Cmd} {j : JsJson} {ctx : Ctx} (hid : ∀ c ∈ cs, IdsSmall c)
    (hj : Same j (batchJson cs)) : batchFromJson ctx j = .ok cs ↔ ∀ c ∈ cs, ¬ IsRemoveAttr c := by
  refine ⟨fun h => ?_, fun h => C28_batch_accepted_partial h hid hj⟩
  have key : ∀ {cs cs' : List Cmd} {js : List JsJson} {i : Nat}, SameList js (cs.map cmdJson) →
      batchLoop ctx i js = .ok cs' → ∀ c ∈ cs, ¬ IsRemoveAttr c := by
    intro cs
    induction cs with
    | nil => intro _ _ _ _ _ c hc; cases hc
    | cons c cs ih =>
      intro cs' js i h hok
      cases h with
      | @cons a _ js _ h1 h2 =>
        intro x hx
        rcases List.mem_cons.mp hx with rfl | hx
        · intro hra
          cases x with
          | removeAttr id name =>
            simp only [batchLoop, C28_remove_attr_violated h1, Res.bind] at hok
            cases hok
          | _ => exact hra
        · simp only [batchLoop, Res.bind] at hok
          split at hok
          · dsimp only at hok
            split at hok
            · rename_i h3; exact ih h2 h3 x hx
            all_goals cases hok
          all_goals cases hok
  cases hj with
  | list hl => exact key hl h

/-- Non-vacuity: a batch in which the server sees the entries of an object in another order. -/
example : Same (.list [.obj [("id", u64Json 7), ("type", .str "create_node"), ("name", .str "div")],
      .obj [("ref_id", .null), ("type", .str "insert_before"), ("parent", u64Json 3), ("child", u64Json 7)]])
    (batchJson [.createNode 7 "div", .insertBefore 3 7 none]) ∧
    ∀ c ∈ [Cmd.createNode 7 "div", .insertBefore 3 7 none], ¬ IsRemoveAttr c ∧ IdsSmall c := by
  refine ⟨.list (.cons (.obj (l' := [("type", .str "create_node"), ("id", u64Json 7), ("name", .str "div")])
      (List.Perm.swap _ _ _) ?_)
    (.cons (.obj (l' := [("type", .str "insert_before"), ("parent", u64Json 3), ("child", u64Json 7), ("ref_id", .null)])
      (List.perm_append_comm (l₁ := [_]) (l₂ := [_, _, _])) ?_) .nil)), ?_⟩
  · exact .cons (.str _) (.cons (.num _) (.cons (.str _) .nil))
  · exact .cons (.str _) (.cons (.num _) (.cons (.num _) (.cons .null .nil)))
  · simp [IsRemoveAttr, IdsSmall]

end Verif.Json
